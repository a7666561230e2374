/-
Quantization functions made from a quantize and a dequantize function: `create_quantization_function` and what it needs,
quantization/function.py:22-40, 77-103, 152-325.

Simplifications:
* a signature is the list of its parameters with kind, annotation and default; calls with keywords bind as Python does;
* Python's `!=` on default values is the function `ne`; a default is refused by `dataclasses` if it has no hash
  (`unhashable`);
* fields named like methods of the parameter class are left out, and so is export mode.
-/
import Verif.Util.Dict

namespace FF.CreateFn

/-! ## Model -/

/-- `inspect.Parameter.kind`. -/
inductive Kind where
  | positionalOnly
  | positionalOrKeyword
  | varPositional
  | keywordOnly
  | varKeyword
  deriving DecidableEq, Repr

/-- Exceptions. -/
inductive Err where
  | typeError
  | valueError
  | runtimeError
  deriving DecidableEq, Repr

section
variable {V A D : Type} [DecidableEq A]

/-- A parameter of a function; annotation and default can be missing. -/
structure Param (V A : Type) where
  name : String
  kind : Kind := .positionalOrKeyword
  ann : Option A := none
  default : Option V := none

/-- A function of the user: its parameters, the first of which takes the data, and what it computes from the data and the
values of the other parameters in order. -/
structure Fn (V A D : Type) where
  params : List (Param V A)
  body : D → List (String × V) → D

/-- A field of the class of parameters: annotation and default. -/
abbrev Field (V A : Type) := A × Option V

/-- `_parameters_from_function`: function.py:305-325; `any` is the annotation of parameters without one.  A function
without parameters ends the generator with `StopIteration`, which Python turns into `RuntimeError`. -/
def parametersFrom (any : A) : List (Param V A) → Except Err (List (String × Field V A))
  | [] => .error .runtimeError
  | _ :: ps =>
    if ps.any (fun p => p.kind ≠ .keywordOnly ∧ p.kind ≠ .positionalOrKeyword) then .error .typeError
    else .ok (Dict.ofList (ps.map (fun p => (p.name, (p.ann.getD any, p.default)))))

/-- `quantize_field.default != dequantize_field.default`, where a missing default is equal to itself only. -/
def defaultNe (ne : V → V → Bool) : Option V → Option V → Bool
  | none, none => false
  | some v, some v' => ne v v'
  | _, _ => true

/-- The comparison of parameters with the same name: function.py:266-284. -/
def check (ne : V → V → Bool) (qs : List (String × Field V A)) : List (String × Field V A) → Except Err Unit
  | [] => .ok ()
  | (n, (a, d)) :: ds =>
    match Dict.get qs n with
    | none => check ne qs ds
    | some (a', d') =>
      if a' ≠ a then .error .typeError
      else if defaultNe ne d' d then .error .valueError
      else check ne qs ds

/-- A field without a default follows one with a default, which `dataclasses` refuses. -/
def badOrder : List (String × Field V A) → Bool
  | [] => false
  | (_, (_, d)) :: fs => (d.isSome && fs.any (fun f => f.2.2.isNone)) || badOrder fs

/-- The class of parameters: names for each function, and the fields. -/
structure ParamsType (V A : Type) where
  quantizeNames : List String
  dequantizeNames : List String
  fields : List (String × Field V A)

/-- `_make_quantization_parameters_type`: function.py:250-302. -/
def makeParams (any : A) (ne : V → V → Bool) (unhashable : V → Bool) (q d : Fn V A D) : Except Err (ParamsType V A) :=
  match parametersFrom any q.params with
  | .error e => .error e
  | .ok qs =>
    match parametersFrom any d.params with
    | .error e => .error e
    | .ok ds =>
      match check ne qs ds with
      | .error e => .error e
      | .ok () =>
        let fields := ds.foldl (fun m e => Dict.set m e.1 e.2) qs
        if fields.any (fun f => (f.2.2.map unhashable).getD false) then .error .valueError
        else if badOrder fields then .error .typeError
        else .ok ⟨Dict.keys qs, Dict.keys ds, fields⟩

/-- The value of a field of a new object: given or by default. -/
def fieldValue (kwargs : List (String × V)) (f : String × Field V A) : Option V :=
  match Dict.get kwargs f.1 with
  | some v => some v
  | none => f.2.2

/-- Values for all fields, or none if one is missing. -/
def fieldValues (kwargs : List (String × V)) : List (String × Field V A) → Option (List (String × V))
  | [] => some []
  | f :: fs =>
    match fieldValue kwargs f, fieldValues kwargs fs with
    | some v, some r => some ((f.1, v) :: r)
    | _, _ => none

/-- `QuantParams(**kwargs)`: the `__init__` that `dataclasses` makes. -/
def construct (t : ParamsType V A) (kwargs : List (String × V)) : Except Err (List (String × V)) :=
  if kwargs.any (fun e => e.1 ∉ Dict.keys t.fields) then .error .typeError
  else match fieldValues kwargs t.fields with
    | some o => .ok o
    | none => .error .typeError

/-- `quantize_params`, `dequantize_params`: function.py:291-295. -/
def select (names : List String) (o : List (String × V)) : List (String × V) :=
  names.filterMap (fun n => (Dict.get o n).map (fun v => (n, v)))

/-- Values for parameters by keyword or default, or none if one is missing. -/
def bindParams (kwargs : List (String × V)) : List (Param V A) → Option (List (String × V))
  | [] => some []
  | p :: ps =>
    match (match Dict.get kwargs p.name with | some v => some v | none => p.default), bindParams kwargs ps with
    | some v, some r => some ((p.name, v) :: r)
    | _, _ => none

/-- Python's call `f(data, **kwargs)`, for parameters that can be given by keyword. -/
def call (f : Fn V A D) (data : D) (kwargs : List (String × V)) : Except Err D :=
  match f.params with
  | [] => .error .typeError
  | p :: ps =>
    if p.kind = .keywordOnly ∨ p.kind = .varKeyword then .error .typeError
    else if kwargs.any (fun e => e.1 ∉ ps.map Param.name) then .error .typeError
    else match bindParams kwargs ps with
      | some b => .ok (f.body data b)
      | none => .error .typeError

/-- `_ImplicitQuantizationFunction.quantize`: function.py:190-195; the data and parameters of the quantized tensor. -/
def quantize (t : ParamsType V A) (q : Fn V A D) (data : D) (o : List (String × V)) : Except Err (D × List (String × V)) :=
  match call q data (select t.quantizeNames o) with
  | .error e => .error e
  | .ok raw => .ok (raw, o)

/-- `_ImplicitQuantizationFunction.dequantize`: function.py:197-200. -/
def dequantize (t : ParamsType V A) (d : Fn V A D) (raw : D) (o : List (String × V)) : Except Err D :=
  call d raw (select t.dequantizeNames o)

/-- The function made: `quantize_func(data, **kwargs)`, function.py:243-245.  A keyword `data` is a second value for its
first parameter. -/
def quantizeFunc (t : ParamsType V A) (q : Fn V A D) (data : D) (kwargs : List (String × V)) :
    Except Err (D × List (String × V)) :=
  if "data" ∈ Dict.keys kwargs then .error .typeError
  else match construct t kwargs with
    | .error e => .error e
    | .ok o => quantize t q data o

/-- `QuantizationParameters.with_changes`: function.py:29-31, `dataclasses.replace`. -/
def withChanges (t : ParamsType V A) (o changes : List (String × V)) : Except Err (List (String × V)) :=
  construct t (o.foldl (fun m e => if e.1 ∈ Dict.keys m then m else m ++ [e]) changes)

/-! ## Specification -/

/-- The values a function gets for its parameters after the first if it is called with the keywords: each is the one given,
else its default. -/
def Bound (f : Fn V A D) (kwargs b : List (String × V)) : Prop :=
  b.map Prod.fst = f.params.tail.map Param.name ∧
    ∀ p ∈ f.params.tail, ∀ v, (p.name, v) ∈ b →
      (p.name, v) ∈ kwargs ∨ (p.name ∉ kwargs.map Prod.fst ∧ p.default = some v)

/-- A keyword is a parameter of the function, other than the first. -/
def Takes (f : Fn V A D) (n : String) : Prop := ∃ p ∈ f.params.tail, p.name = n

/-- A function Python accepts, whose first parameter can be given by position and whose parameters have names that differ.
-/
def WellFormed (f : Fn V A D) : Prop :=
  (f.params.map Param.name).Nodup ∧ ∃ p ps, f.params = p :: ps ∧ p.kind ≠ .keywordOnly ∧ p.kind ≠ .varKeyword

/-- The two functions can be made into a quantization function: all parameters but the first can be given by keyword,
parameters with the same name have the same annotation and default, all defaults have a hash, and in the order of the
parameters of `quantize` and then those of `dequantize` only, none without a default follows one with a default. -/
def Compatible (any : A) (ne : V → V → Bool) (unhashable : V → Bool) (q d : Fn V A D) : Prop :=
  (∀ f, f = q ∨ f = d → f.params ≠ [] ∧ ∀ p ∈ f.params.tail, p.kind = .keywordOnly ∨ p.kind = .positionalOrKeyword) ∧
  (∀ p ∈ q.params.tail, ∀ p' ∈ d.params.tail, p.name = p'.name → p.ann.getD any = p'.ann.getD any ∧
    ((p.default = none ∧ p'.default = none) ∨ ∃ v v', p.default = some v ∧ p'.default = some v' ∧ ne v v' = false)) ∧
  (∀ p ∈ d.params.tail, ∀ v, p.default = some v → unhashable v = false) ∧
  (∀ p ∈ q.params.tail, ∀ v, p.default = some v → ¬ Takes d p.name → unhashable v = false) ∧
  (q.params.tail ++ d.params.tail.filter (fun p => p.name ∉ q.params.tail.map Param.name)).Pairwise
    (fun p p' => p.default.isSome → p'.default.isSome)

/-! ## Lemmas -/

/-- The entries of a list of parameters. -/
def entries (any : A) (ps : List (Param V A)) : List (String × Field V A) :=
  ps.map (fun p => (p.name, (p.ann.getD any, p.default)))

theorem keys_entries (any : A) (ps : List (Param V A)) : Dict.keys (entries any ps) = ps.map Param.name := by
  unfold entries Dict.keys
  rw [List.map_map]
  rfl

theorem mem_entries {any : A} {ps : List (Param V A)} {n : String} {f : Field V A} :
    (n, f) ∈ entries any ps ↔ ∃ p ∈ ps, p.name = n ∧ f = (p.ann.getD any, p.default) := by
  unfold entries
  rw [List.mem_map]
  constructor
  · rintro ⟨p, hp, h⟩
    cases h
    exact ⟨p, hp, rfl, rfl⟩
  · rintro ⟨p, hp, rfl, rfl⟩
    exact ⟨p, hp, rfl⟩

theorem tail_nodup {f : Fn V A D} (h : WellFormed f) : (f.params.tail.map Param.name).Nodup := by
  obtain ⟨h1, p, ps, h2, _⟩ := h
  rw [h2] at h1 ⊢
  exact (List.nodup_cons.1 h1).2

theorem parametersFrom_ok_iff {any : A} {f : Fn V A D} (h : WellFormed f) {es : List (String × Field V A)} :
    parametersFrom any f.params = .ok es ↔
      (∀ p ∈ f.params.tail, p.kind = .keywordOnly ∨ p.kind = .positionalOrKeyword) ∧ es = entries any f.params.tail := by
  have hn := tail_nodup h
  obtain ⟨h1, p, ps, h2, _⟩ := h
  rw [h2] at hn ⊢
  rw [List.tail_cons] at hn ⊢
  unfold parametersFrom
  dsimp only
  rw [show Dict.ofList (ps.map (fun p => (p.name, (p.ann.getD any, p.default)))) = entries any ps from
    Dict.ofList_nodup (by rw [← keys_entries any ps] at hn; exact hn)]
  by_cases hb : ps.any (fun p => p.kind ≠ .keywordOnly ∧ p.kind ≠ .positionalOrKeyword) = true
  · rw [if_pos hb]
    constructor
    · intro h; cases h
    · rintro ⟨h, _⟩
      rw [List.any_eq_true] at hb
      obtain ⟨p, hp, hk⟩ := hb
      have hk := of_decide_eq_true hk
      rcases h p hp with h | h
      · exact absurd h hk.1
      · exact absurd h hk.2
  · rw [if_neg hb]
    constructor
    · intro h
      cases h
      refine ⟨?_, rfl⟩
      intro p hp
      by_cases h1 : p.kind = .keywordOnly
      · exact Or.inl h1
      · by_cases h2 : p.kind = .positionalOrKeyword
        · exact Or.inr h2
        · exact absurd (List.any_eq_true.2 ⟨p, hp, decide_eq_true ⟨h1, h2⟩⟩) hb
    · rintro ⟨_, rfl⟩
      rfl

theorem check_ok_iff {ne : V → V → Bool} {qs : List (String × Field V A)} : ∀ {ds : List (String × Field V A)},
    check ne qs ds = .ok () ↔
      ∀ e ∈ ds, ∀ f, Dict.get qs e.1 = some f → f.1 = e.2.1 ∧ defaultNe ne f.2 e.2.2 = false
  | [] => by simp [check]
  | (n, (a, d)) :: ds => by
    unfold check
    rw [List.forall_mem_cons]
    cases hg : Dict.get qs n with
    | none =>
      dsimp only
      rw [check_ok_iff]
      constructor
      · intro h
        exact ⟨(fun f hf => by cases hf), h⟩
      · exact fun h => h.2
    | some f =>
      obtain ⟨a', d'⟩ := f
      dsimp only
      by_cases h1 : a' ≠ a
      · rw [if_pos h1]
        constructor
        · intro h; cases h
        · intro h
          exact absurd (h.1 _ rfl).1 h1
      · rw [if_neg h1]
        by_cases h2 : defaultNe ne d' d = true
        · rw [if_pos h2]
          constructor
          · intro h; cases h
          · intro h
            have := (h.1 _ rfl).2
            rw [h2] at this
            cases this
        · rw [if_neg h2, check_ok_iff]
          constructor
          · intro h
            refine ⟨fun f hf => ?_, h⟩
            cases hf
            exact ⟨not_not.1 h1, by simpa using h2⟩
          · exact fun h => h.2

/-- The merged fields. -/
def merge (qs ds : List (String × Field V A)) : List (String × Field V A) := ds.foldl (fun m e => Dict.set m e.1 e.2) qs

omit [DecidableEq A] in
theorem merge_nodup {qs ds : List (String × Field V A)} (hq : (Dict.keys qs).Nodup) : (Dict.keys (merge qs ds)).Nodup :=
  Dict.foldl_set_nodup ds qs hq

omit [DecidableEq A] in
theorem get_merge : ∀ (ds qs : List (String × Field V A)), (Dict.keys ds).Nodup → ∀ n,
    Dict.get (merge qs ds) n = (match Dict.get ds n with | some f => some f | none => Dict.get qs n)
  | [], qs, _, n => rfl
  | (k, f) :: ds, qs, hn, n => by
    have hn' : k ∉ Dict.keys ds ∧ (Dict.keys ds).Nodup := List.nodup_cons.1 hn
    show Dict.get (merge (Dict.set qs k f) ds) n = _
    rw [get_merge ds _ hn'.2 n]
    simp only [Dict.get]
    by_cases h : k = n
    · subst h
      rw [Dict.get_none_iff.2 hn'.1, if_pos rfl]
      dsimp only
      rw [Dict.get_set, if_pos rfl]
    · rw [if_neg h, Dict.get_set, if_neg h]

/-- Name and whether there is a default. -/
def flag (e : String × Field V A) : String × Bool := (e.1, e.2.2.isSome)

omit [DecidableEq A] in
theorem set_flag : ∀ {qs : List (String × Field V A)} {k : String} {f f' : Field V A}, (Dict.keys qs).Nodup →
    Dict.get qs k = some f' → f'.2.isSome = f.2.isSome → (Dict.set qs k f).map flag = qs.map flag
  | [], k, f, f', _, h, _ => by cases h
  | (k', g) :: qs, k, f, f', hn, h, hs => by
    have hn' : k' ∉ Dict.keys qs ∧ (Dict.keys qs).Nodup := List.nodup_cons.1 hn
    unfold Dict.set
    simp only [Dict.get] at h
    by_cases hk : k' = k
    · rw [if_pos hk] at h ⊢
      cases h
      simp only [List.map_cons, flag, hk, hs]
    · rw [if_neg hk] at h ⊢
      rw [List.map_cons, List.map_cons, set_flag hn'.2 h hs]

omit [DecidableEq A] in
theorem keys_of_flag {qs qs' : List (String × Field V A)} (h : qs.map flag = qs'.map flag) : Dict.keys qs = Dict.keys qs' := by
  have := congrArg (List.map Prod.fst) h
  rw [List.map_map, List.map_map] at this
  exact this

omit [DecidableEq A] in
theorem merge_flag : ∀ (ds qs : List (String × Field V A)), (Dict.keys ds).Nodup → (Dict.keys qs).Nodup →
    (∀ e ∈ ds, ∀ f, Dict.get qs e.1 = some f → f.2.isSome = e.2.2.isSome) →
    (merge qs ds).map flag = qs.map flag ++ (ds.filter (fun e => e.1 ∉ Dict.keys qs)).map flag
  | [], qs, _, _, _ => by simp [merge]
  | (k, f) :: ds, qs, hd, hq, h => by
    have hn' : k ∉ Dict.keys ds ∧ (Dict.keys ds).Nodup := List.nodup_cons.1 hd
    have hne : ∀ e ∈ ds, e.1 ≠ k := fun e he hk => hn'.1 (hk ▸ List.mem_map_of_mem he)
    show (merge (Dict.set qs k f) ds).map flag = _
    rw [merge_flag ds _ hn'.2 (Dict.nodup_set hq k f) (by
      intro e he g hg
      rw [Dict.get_set, if_neg (fun hk => hne e he hk.symm)] at hg
      exact h e (List.mem_cons_of_mem _ he) g hg)]
    by_cases hk : k ∈ Dict.keys qs
    · obtain ⟨g, hg⟩ := Option.isSome_iff_exists.1 (Dict.get_isSome_iff.2 hk)
      have hs := set_flag hq hg (h (k, f) List.mem_cons_self g hg)
      rw [hs, keys_of_flag hs, List.filter_cons_of_neg (by simpa using hk)]
    · rw [Dict.set_new hk, List.map_append, List.filter_cons_of_pos (by simpa using hk), List.map_cons, List.map_cons,
        List.map_nil, List.append_assoc, List.singleton_append]
      congr 3
      apply List.filter_congr
      intro e he
      have : e.1 ∉ Dict.keys (qs ++ [(k, f)]) ↔ e.1 ∉ Dict.keys qs := by
        unfold Dict.keys
        rw [List.map_append, List.mem_append]
        simp only [List.map_cons, List.map_nil, List.mem_singleton, hne e he, or_false]
      simp only [this]

omit [DecidableEq A] in
theorem badOrder_iff : ∀ (fs : List (String × Field V A)),
    badOrder fs = false ↔ (fs.map flag).Pairwise (fun a b => a.2 = true → b.2 = true)
  | [] => by simp [badOrder]
  | (n, (a, d)) :: fs => by
    unfold badOrder
    rw [List.map_cons, List.pairwise_cons, ← badOrder_iff fs, Bool.or_eq_false_iff]
    apply and_congr_left
    intro _
    cases d with
    | none => simp [flag]
    | some v =>
      simp only [Option.isSome_some, Bool.true_and, flag, List.mem_map, forall_exists_index, and_imp, true_implies]
      rw [List.any_eq_false]
      constructor
      · rintro h x e he rfl
        have := h e he
        cases hd : e.2.2 with
        | none => rw [hd] at this; exact absurd rfl this
        | some w => rfl
      · intro h e he
        have := h _ e he rfl
        intro hx
        rw [Option.isNone_iff_eq_none] at hx
        rw [hx] at this
        cases this

/-- The parts of a class of parameters that was made. -/
theorem makeParams_ok_iff {any : A} {ne : V → V → Bool} {unhashable : V → Bool} {q d : Fn V A D} (hq : WellFormed q)
    (hd : WellFormed d) {t : ParamsType V A} : makeParams any ne unhashable q d = .ok t ↔
    ((∀ p ∈ q.params.tail, p.kind = .keywordOnly ∨ p.kind = .positionalOrKeyword) ∧
      (∀ p ∈ d.params.tail, p.kind = .keywordOnly ∨ p.kind = .positionalOrKeyword) ∧
      check ne (entries any q.params.tail) (entries any d.params.tail) = .ok () ∧
      (∀ f ∈ merge (entries any q.params.tail) (entries any d.params.tail), (f.2.2.map unhashable).getD false = false) ∧
      badOrder (merge (entries any q.params.tail) (entries any d.params.tail)) = false) ∧
    t = ⟨q.params.tail.map Param.name, d.params.tail.map Param.name,
      merge (entries any q.params.tail) (entries any d.params.tail)⟩ := by
  unfold makeParams
  cases h1 : parametersFrom any q.params with
  | error e =>
    dsimp only
    constructor
    · intro h; cases h
    · rintro ⟨⟨h2, _⟩, _⟩
      have := (parametersFrom_ok_iff (any := any) hq).2 ⟨h2, rfl⟩
      rw [this] at h1
      cases h1
  | ok qs =>
    obtain ⟨k1, rfl⟩ := (parametersFrom_ok_iff hq).1 h1
    dsimp only
    cases h2 : parametersFrom any d.params with
    | error e =>
      dsimp only
      constructor
      · intro h; cases h
      · rintro ⟨⟨_, h3, _⟩, _⟩
        have := (parametersFrom_ok_iff (any := any) hd).2 ⟨h3, rfl⟩
        rw [this] at h2
        cases h2
    | ok ds =>
      obtain ⟨k2, rfl⟩ := (parametersFrom_ok_iff hd).1 h2
      dsimp only
      cases h3 : check ne (entries any q.params.tail) (entries any d.params.tail) with
      | error e =>
        dsimp only
        constructor
        · intro h; cases h
        · rintro ⟨⟨_, _, h, _⟩, _⟩
          cases h
      | ok u =>
        cases u
        dsimp only
        rw [show (entries any d.params.tail).foldl (fun m e => Dict.set m e.1 e.2) (entries any q.params.tail) =
          merge (entries any q.params.tail) (entries any d.params.tail) from rfl, keys_entries, keys_entries]
        by_cases h4 : (merge (entries any q.params.tail) (entries any d.params.tail)).any
            (fun f => (f.2.2.map unhashable).getD false) = true
        · rw [if_pos h4]
          constructor
          · intro h; cases h
          · rintro ⟨⟨_, _, _, h, _⟩, _⟩
            obtain ⟨f, hf, hx⟩ := List.any_eq_true.1 h4
            rw [h f hf] at hx
            cases hx
        · rw [if_neg h4]
          have h4' : ∀ f ∈ merge (entries any q.params.tail) (entries any d.params.tail),
              (f.2.2.map unhashable).getD false = false := by
            intro f hf
            cases hx : (f.2.2.map unhashable).getD false with
            | false => rfl
            | true => exact absurd (List.any_eq_true.2 ⟨f, hf, hx⟩) h4
          by_cases h5 : badOrder (merge (entries any q.params.tail) (entries any d.params.tail)) = true
          · rw [if_pos h5]
            constructor
            · intro h; cases h
            · rintro ⟨⟨_, _, _, _, h⟩, _⟩
              rw [h5] at h
              cases h
          · rw [if_neg h5]
            constructor
            · intro h
              cases h
              exact ⟨⟨k1, k2, rfl, h4', by simpa using h5⟩, rfl⟩
            · rintro ⟨_, rfl⟩
              rfl

theorem get_entries {any : A} {ps : List (Param V A)} (hn : (ps.map Param.name).Nodup) {n : String} {f : Field V A} :
    Dict.get (entries any ps) n = some f ↔ ∃ p ∈ ps, p.name = n ∧ f = (p.ann.getD any, p.default) := by
  rw [Dict.get_eq_some_iff (by rw [keys_entries]; exact hn), mem_entries]

theorem get_entries_none {any : A} {ps : List (Param V A)} {n : String} :
    Dict.get (entries any ps) n = none ↔ ∀ p ∈ ps, p.name ≠ n := by
  rw [Dict.get_none_iff, keys_entries, List.mem_map]
  constructor
  · intro h p hp e
    exact h ⟨p, hp, e⟩
  · rintro h ⟨p, hp, e⟩
    exact h p hp e

theorem defaultNe_false {ne : V → V → Bool} {x y : Option V} : defaultNe ne x y = false ↔
    (x = none ∧ y = none) ∨ ∃ v v', x = some v ∧ y = some v' ∧ ne v v' = false := by
  cases x <;> cases y <;> simp [defaultNe]

omit [DecidableEq A] in
theorem fieldValues_some {kwargs : List (String × V)} : ∀ {fs : List (String × Field V A)} {o : List (String × V)},
    fieldValues kwargs fs = some o → Dict.keys o = Dict.keys fs ∧
      ∀ n, Dict.get o n = (Dict.get fs n).bind (fun f => fieldValue kwargs (n, f))
  | [], o, h => by
    cases h
    exact ⟨rfl, fun n => rfl⟩
  | f :: fs, o, h => by
    unfold fieldValues at h
    cases h1 : fieldValue kwargs f with
    | none => rw [h1] at h; cases h
    | some v =>
      cases h2 : fieldValues kwargs fs with
      | none => rw [h1, h2] at h; cases h
      | some r =>
        rw [h1, h2] at h
        cases h
        obtain ⟨i1, i2⟩ := fieldValues_some h2
        refine ⟨by simp only [Dict.keys, List.map_cons] at i1 ⊢; rw [i1], ?_⟩
        intro n
        obtain ⟨k, g⟩ := f
        simp only [Dict.get]
        by_cases hk : k = n
        · rw [if_pos hk, if_pos hk, ← h1, hk]
          rfl
        · rw [if_neg hk, if_neg hk, i2]

omit [DecidableEq A] in
theorem fieldValues_defined {kwargs : List (String × V)} : ∀ {fs : List (String × Field V A)},
    (∃ o, fieldValues kwargs fs = some o) ↔ ∀ f ∈ fs, f.2.2 = none → f.1 ∈ Dict.keys kwargs
  | [] => by simp [fieldValues]
  | f :: fs => by
    have key : (∃ v, fieldValue kwargs f = some v) ↔ (f.2.2 = none → f.1 ∈ Dict.keys kwargs) := by
      unfold fieldValue
      cases hg : Dict.get kwargs f.1 with
      | some v =>
        refine ⟨fun _ _ => Dict.get_isSome_iff.1 (by rw [hg]; rfl), fun _ => ⟨v, rfl⟩⟩
      | none =>
        dsimp only
        have hn := Dict.get_none_iff.1 hg
        constructor
        · rintro ⟨v, hv⟩ h
          rw [h] at hv
          cases hv
        · intro h
          cases hd : f.2.2 with
          | some v => exact ⟨v, rfl⟩
          | none => exact absurd (h hd) hn
    rw [List.forall_mem_cons, ← key, ← fieldValues_defined (fs := fs)]
    rw [show fieldValues kwargs (f :: fs) = (match fieldValue kwargs f, fieldValues kwargs fs with
      | some v, some r => some ((f.1, v) :: r) | _, _ => none) from rfl]
    cases fieldValue kwargs f <;> cases fieldValues kwargs fs <;> simp

theorem bindParams_some {kwargs : List (String × V)} : ∀ {ps : List (Param V A)} , (∀ p ∈ ps, p.name ∈ Dict.keys kwargs) →
    ∃ b, bindParams kwargs ps = some b ∧ b.map Prod.fst = ps.map Param.name ∧
      ∀ n v, (n, v) ∈ b → Dict.get kwargs n = some v
  | [], _ => ⟨[], rfl, rfl, by simp⟩
  | p :: ps, h => by
    obtain ⟨b, h1, h2, h3⟩ := bindParams_some (fun p' hp' => h p' (List.mem_cons_of_mem _ hp'))
    obtain ⟨v, hv⟩ := Option.isSome_iff_exists.1 (Dict.get_isSome_iff.2 (h p List.mem_cons_self))
    refine ⟨(p.name, v) :: b, by simp only [bindParams, hv, h1], by simp [h2], ?_⟩
    intro n w hw
    rcases List.mem_cons.1 hw with e | hw
    · cases e
      exact hv
    · exact h3 n w hw

theorem keys_select {names : List String} {o : List (String × V)} (h : ∀ n ∈ names, n ∈ Dict.keys o) :
    Dict.keys (select names o) = names := by
  induction names with
  | nil => rfl
  | cons n names ih =>
    obtain ⟨v, hv⟩ := Option.isSome_iff_exists.1 (Dict.get_isSome_iff.2 (h n List.mem_cons_self))
    have := ih (fun m hm => h m (List.mem_cons_of_mem _ hm))
    unfold select Dict.keys at this ⊢
    rw [List.filterMap_cons, hv]
    simp only [Option.map_some, List.map_cons, this]

theorem get_select {names : List String} {o : List (String × V)} {n : String} {v : V}
    (h : Dict.get (select names o) n = some v) : Dict.get o n = some v := by
  have := Dict.get_mem h
  unfold select at this
  rw [List.mem_filterMap] at this
  obtain ⟨m, _, hm⟩ := this
  rw [Option.map_eq_some_iff] at hm
  obtain ⟨w, hw, e⟩ := hm
  cases e
  exact hw

/-- A call with the values selected from an object that has all of them succeeds. -/
theorem call_select {f : Fn V A D} (hf : WellFormed f) (data : D) {o : List (String × V)}
    (ho : ∀ p ∈ f.params.tail, p.name ∈ Dict.keys o) :
    ∃ b, call f data (select (f.params.tail.map Param.name) o) = .ok (f.body data b) ∧
      b.map Prod.fst = f.params.tail.map Param.name ∧ ∀ n v, (n, v) ∈ b → Dict.get o n = some v := by
  obtain ⟨_, p, ps, e, k1, k2⟩ := hf
  unfold call
  rw [e] at ho ⊢
  rw [List.tail_cons] at ho ⊢
  have hk : Dict.keys (select (ps.map Param.name) o) = ps.map Param.name := by
    apply keys_select
    intro n hn
    obtain ⟨p, hp, rfl⟩ := List.mem_map.1 hn
    exact ho p hp
  obtain ⟨b, h1, h2, h3⟩ := bindParams_some (kwargs := select (ps.map Param.name) o) (ps := ps)
    (fun p hp => by rw [hk]; exact List.mem_map_of_mem hp)
  refine ⟨b, ?_, h2, fun n v hv => get_select (h3 n v hv)⟩
  dsimp only
  rw [if_neg (by rintro (h | h); exacts [k1 h, k2 h]), if_neg, h1]
  intro ha
  obtain ⟨x, hx, hx'⟩ := List.any_eq_true.1 ha
  have : x.1 ∈ Dict.keys (select (ps.map Param.name) o) := List.mem_map_of_mem hx
  rw [hk] at this
  exact absurd this (of_decide_eq_true hx')

/-- The fields of the class made: those of both functions, with the default of `dequantize` where both have the name. -/
theorem get_fields {any : A} {q d : Fn V A D} (hq : WellFormed q) (hd : WellFormed d) (n : String) :
    (∀ p ∈ d.params.tail, p.name = n → Dict.get (merge (entries any q.params.tail) (entries any d.params.tail)) n =
      some (p.ann.getD any, p.default)) ∧
    (∀ p ∈ q.params.tail, p.name = n → ¬ Takes d n →
      Dict.get (merge (entries any q.params.tail) (entries any d.params.tail)) n = some (p.ann.getD any, p.default)) ∧
    (n ∈ Dict.keys (merge (entries any q.params.tail) (entries any d.params.tail)) ↔ Takes q n ∨ Takes d n) := by
  have nd' : (Dict.keys (entries any d.params.tail)).Nodup := by rw [keys_entries]; exact tail_nodup hd
  refine ⟨fun p hp e => ?_, fun p hp e ht => ?_, ?_⟩
  · rw [get_merge _ _ nd', (get_entries (tail_nodup hd)).2 ⟨p, hp, e, rfl⟩]
  · rw [get_merge _ _ nd', get_entries_none.2 (fun p' hp' e' => ht ⟨p', hp', e'⟩)]
    exact (get_entries (tail_nodup hq)).2 ⟨p, hp, e, rfl⟩
  · unfold merge
    rw [Dict.mem_keys_foldl, keys_entries, keys_entries, List.mem_map, List.mem_map]
    unfold Takes
    exact Iff.rfl

/-! ## Properties -/

/-- **C110.**  A quantization function is made exactly from compatible functions. -/
theorem created_iff (any : A) (ne : V → V → Bool) (unhashable : V → Bool) (q d : Fn V A D) (hq : WellFormed q)
    (hd : WellFormed d) : (∃ t, makeParams any ne unhashable q d = .ok t) ↔ Compatible any ne unhashable q d := by
  have nq := tail_nodup hq
  have nd := tail_nodup hd
  have nq' : (Dict.keys (entries any q.params.tail)).Nodup := by rw [keys_entries]; exact nq
  have nd' : (Dict.keys (entries any d.params.tail)).Nodup := by rw [keys_entries]; exact nd
  have hchk : check ne (entries any q.params.tail) (entries any d.params.tail) = .ok () ↔
      ∀ p ∈ q.params.tail, ∀ p' ∈ d.params.tail, p.name = p'.name → p.ann.getD any = p'.ann.getD any ∧
        ((p.default = none ∧ p'.default = none) ∨ ∃ v v', p.default = some v ∧ p'.default = some v' ∧ ne v v' = false) := by
    rw [check_ok_iff]
    constructor
    · intro h p hp p' hp' e
      have := h (p'.name, (p'.ann.getD any, p'.default)) (mem_entries.2 ⟨p', hp', rfl, rfl⟩) (p.ann.getD any, p.default)
        ((get_entries nq).2 ⟨p, hp, e, rfl⟩)
      exact ⟨this.1, defaultNe_false.1 this.2⟩
    · rintro h ⟨n, f'⟩ he f hf
      obtain ⟨p', hp', e', rfl⟩ := mem_entries.1 he
      obtain ⟨p, hp, e, rfl⟩ := (get_entries nq).1 hf
      have := h p hp p' hp' (by rw [e, e'])
      exact ⟨this.1, defaultNe_false.2 this.2⟩
  have hmem : ∀ n f, (n, f) ∈ merge (entries any q.params.tail) (entries any d.params.tail) ↔
      (∃ p ∈ d.params.tail, p.name = n ∧ f = (p.ann.getD any, p.default)) ∨
      ((∀ p ∈ d.params.tail, p.name ≠ n) ∧ ∃ p ∈ q.params.tail, p.name = n ∧ f = (p.ann.getD any, p.default)) := by
    intro n f
    rw [← Dict.get_eq_some_iff (merge_nodup nq'), get_merge _ _ nd', ← get_entries nd, ← get_entries nq,
      ← get_entries_none (any := any)]
    cases Dict.get (entries any d.params.tail) n <;> simp
  have hhash : (∀ f ∈ merge (entries any q.params.tail) (entries any d.params.tail),
      (f.2.2.map unhashable).getD false = false) ↔
      (∀ p ∈ d.params.tail, ∀ v, p.default = some v → unhashable v = false) ∧
      (∀ p ∈ q.params.tail, ∀ v, p.default = some v → ¬ Takes d p.name → unhashable v = false) := by
    constructor
    · intro h
      refine ⟨fun p hp v hv => ?_, fun p hp v hv ht => ?_⟩
      · have := h (p.name, (p.ann.getD any, p.default)) ((hmem _ _).2 (Or.inl ⟨p, hp, rfl, rfl⟩))
        rw [hv] at this
        exact this
      · have := h (p.name, (p.ann.getD any, p.default)) ((hmem _ _).2 (Or.inr ⟨fun p' hp' e => ht ⟨p', hp', e⟩, p, hp,
          rfl, rfl⟩))
        rw [hv] at this
        exact this
    · rintro h ⟨n, f⟩ hf
      rcases (hmem n f).1 hf with ⟨p, hp, _, rfl⟩ | ⟨hn, p, hp, hpn, rfl⟩
      · cases hv : p.default with
        | none => rfl
        | some v => exact h.1 p hp v hv
      · cases hv : p.default with
        | none => rfl
        | some v =>
          refine h.2 p hp v hv ?_
          rintro ⟨p', hp', e⟩
          exact hn p' hp' (by rw [e, hpn])
  have hord : (∀ p ∈ q.params.tail, ∀ p' ∈ d.params.tail, p.name = p'.name →
        (p.default = none ∧ p'.default = none) ∨ ∃ v v', p.default = some v ∧ p'.default = some v' ∧ ne v v' = false) →
      (badOrder (merge (entries any q.params.tail) (entries any d.params.tail)) = false ↔
      (q.params.tail ++ d.params.tail.filter (fun p => p.name ∉ q.params.tail.map Param.name)).Pairwise
        (fun p p' => p.default.isSome → p'.default.isSome)) := by
    intro hs
    rw [badOrder_iff, merge_flag _ _ nd' nq' (by
      rintro ⟨n, f'⟩ he f hf
      obtain ⟨p', hp', e', rfl⟩ := mem_entries.1 he
      obtain ⟨p, hp, e, rfl⟩ := (get_entries nq).1 hf
      rcases hs p hp p' hp' (by rw [e, e']) with ⟨h1, h2⟩ | ⟨v, v', h1, h2, _⟩
      · rw [h1, h2]
      · simp [h1, h2])]
    have : (entries any q.params.tail).map flag ++ ((entries any d.params.tail).filter
        (fun e => e.1 ∉ Dict.keys (entries any q.params.tail))).map flag =
        (q.params.tail ++ d.params.tail.filter (fun p => p.name ∉ q.params.tail.map Param.name)).map
          (fun p => (p.name, p.default.isSome)) := by
      rw [keys_entries, List.map_append]
      unfold entries
      rw [List.map_map, List.filter_map, List.map_map]
      rfl
    rw [this, List.pairwise_map]
  constructor
  · rintro ⟨t, ht⟩
    obtain ⟨⟨h1, h2, h3, h4, h5⟩, _⟩ := (makeParams_ok_iff hq hd).1 ht
    have h3' := hchk.1 h3
    refine ⟨?_, h3', (hhash.1 h4).1, (hhash.1 h4).2, (hord (fun p hp p' hp' e => (h3' p hp p' hp' e).2)).1 h5⟩
    rintro f (rfl | rfl)
    · obtain ⟨_, p, ps, e, _⟩ := hq
      exact ⟨by rw [e]; simp, h1⟩
    · obtain ⟨_, p, ps, e, _⟩ := hd
      exact ⟨by rw [e]; simp, h2⟩
  · rintro ⟨h1, h2, h3, h4, h5⟩
    exact ⟨_, (makeParams_ok_iff hq hd).2 ⟨⟨(h1 q (Or.inl rfl)).2, (h1 d (Or.inr rfl)).2, hchk.2 h2, hhash.2 ⟨h3, h4⟩,
      (hord (fun p hp p' hp' e => (h2 p hp p' hp' e).2)).2 h5⟩, rfl⟩⟩

/-- **C110.**  The function made accepts exactly the keywords that the two functions together can be called with: each is
a parameter of one of them, and every parameter without a default is given; `data` is taken. -/
theorem accepted_iff (any : A) (ne : V → V → Bool) (unhashable : V → Bool) (q d : Fn V A D) (hq : WellFormed q)
    (hd : WellFormed d) (t : ParamsType V A) (ht : makeParams any ne unhashable q d = .ok t) (data : D)
    (kwargs : List (String × V)) : (∃ r, quantizeFunc t q data kwargs = .ok r) ↔
      "data" ∉ kwargs.map Prod.fst ∧ (∀ n ∈ kwargs.map Prod.fst, Takes q n ∨ Takes d n) ∧
      ∀ f, f = q ∨ f = d → ∀ p ∈ f.params.tail, p.default = none → p.name ∈ kwargs.map Prod.fst := by
  obtain ⟨⟨_, _, h3, _, _⟩, rfl⟩ := (makeParams_ok_iff hq hd).1 ht
  obtain ⟨_, hc, _⟩ := (created_iff any ne unhashable q d hq hd).1 ⟨_, ht⟩
  have hobj : (∃ o, fieldValues kwargs (merge (entries any q.params.tail) (entries any d.params.tail)) = some o) ↔
      ∀ f, f = q ∨ f = d → ∀ p ∈ f.params.tail, p.default = none → p.name ∈ kwargs.map Prod.fst := by
    rw [fieldValues_defined]
    have nq' : (Dict.keys (entries any q.params.tail)).Nodup := by rw [keys_entries]; exact tail_nodup hq
    constructor
    · rintro h f (rfl | rfl) p hp hn
      · by_cases ht : Takes d p.name
        · obtain ⟨p', hp', e⟩ := ht
          have hn' : p'.default = none := by
            rcases (hc p hp p' hp' e.symm).2 with ⟨_, h⟩ | ⟨v, _, h, _⟩
            · exact h
            · rw [hn] at h; cases h
          have := (get_fields (any := any) hq hd p.name).1 p' hp' e
          exact h _ (Dict.get_mem this) hn'
        · have := (get_fields (any := any) hq hd p.name).2.1 p hp rfl ht
          exact h _ (Dict.get_mem this) hn
      · have := (get_fields (any := any) hq hd p.name).1 p hp rfl
        exact h _ (Dict.get_mem this) hn
    · rintro h ⟨n, f⟩ hf hn
      have hg := (Dict.get_eq_some_iff (merge_nodup nq')).2 hf
      have hk : n ∈ Dict.keys (merge (entries any q.params.tail) (entries any d.params.tail)) := List.mem_map_of_mem hf
      by_cases htd : Takes d n
      · obtain ⟨p, hp, e⟩ := htd
        rw [(get_fields (any := any) hq hd n).1 p hp e] at hg
        cases hg
        have := h d (Or.inr rfl) p hp hn
        rw [e] at this
        exact this
      · rcases (get_fields (any := any) hq hd n).2.2.1 hk with ⟨p, hp, e⟩ | ht'
        · rw [(get_fields (any := any) hq hd n).2.1 p hp e htd] at hg
          cases hg
          have := h q (Or.inl rfl) p hp hn
          rw [e] at this
          exact this
        · exact absurd ht' htd
  rw [← hobj]
  unfold quantizeFunc construct
  by_cases hdata : "data" ∈ Dict.keys kwargs
  · rw [if_pos hdata]
    constructor
    · rintro ⟨r, hr⟩; cases hr
    · exact fun h => absurd hdata h.1
  · rw [if_neg hdata]
    dsimp only
    by_cases hk : kwargs.any
        (fun e => e.1 ∉ Dict.keys (merge (entries any q.params.tail) (entries any d.params.tail))) = true
    · rw [if_pos hk]
      constructor
      · rintro ⟨r, hr⟩; cases hr
      · rintro ⟨_, h, _⟩
        obtain ⟨e, he, hx⟩ := List.any_eq_true.1 hk
        exact absurd ((get_fields (any := any) hq hd e.1).2.2.2 (h e.1 (List.mem_map_of_mem he))) (of_decide_eq_true hx)
    · rw [if_neg hk]
      have hk' : ∀ n ∈ kwargs.map Prod.fst, Takes q n ∨ Takes d n := by
        intro n hn
        obtain ⟨e, he, rfl⟩ := List.mem_map.1 hn
        apply (get_fields (any := any) hq hd e.1).2.2.1
        by_contra hc
        exact hk (List.any_eq_true.2 ⟨e, he, decide_eq_true hc⟩)
      cases ho : fieldValues kwargs (merge (entries any q.params.tail) (entries any d.params.tail)) with
      | none =>
        dsimp only
        constructor
        · rintro ⟨r, hr⟩; cases hr
        · rintro ⟨_, _, o, h⟩; cases h
      | some o =>
        dsimp only
        refine ⟨fun _ => ⟨hdata, hk', o, rfl⟩, fun _ => ?_⟩
        obtain ⟨b, hb, _⟩ := call_select hq data (o := o) (by
          intro p hp
          rw [(fieldValues_some ho).1]
          exact (get_fields (any := any) hq hd p.name).2.2.2 (Or.inl ⟨p, hp, rfl⟩))
        exact ⟨(q.body data b, o), by unfold quantize; rw [hb]⟩

/-- The object of parameters: its keys, and the value of each parameter of either function. -/
theorem construct_spec {any : A} {ne : V → V → Bool} (hne : ∀ v v', ne v v' = false → v = v') {unhashable : V → Bool}
    {q d : Fn V A D} (hq : WellFormed q) (hd : WellFormed d) {t : ParamsType V A}
    (ht : makeParams any ne unhashable q d = .ok t) {kwargs o : List (String × V)} (h : construct t kwargs = .ok o) :
    (∀ n, n ∈ Dict.keys o ↔ Takes q n ∨ Takes d n) ∧ (∀ n ∈ Dict.keys kwargs, Takes q n ∨ Takes d n) ∧
    ∀ f, f = q ∨ f = d → ∀ p ∈ f.params.tail, ∀ v, Dict.get o p.name = some v →
      Dict.get kwargs p.name = some v ∨ (Dict.get kwargs p.name = none ∧ p.default = some v) := by
  obtain ⟨⟨_, _, h3, _, _⟩, rfl⟩ := (makeParams_ok_iff hq hd).1 ht
  obtain ⟨_, hc, _⟩ := (created_iff any ne unhashable q d hq hd).1 ⟨_, ht⟩
  unfold construct at h
  dsimp only at h
  by_cases hk : kwargs.any
      (fun e => e.1 ∉ Dict.keys (merge (entries any q.params.tail) (entries any d.params.tail))) = true
  · rw [if_pos hk] at h; cases h
  · rw [if_neg hk] at h
    cases ho : fieldValues kwargs (merge (entries any q.params.tail) (entries any d.params.tail)) with
    | none => rw [ho] at h; cases h
    | some o' =>
      rw [ho] at h
      cases h
      obtain ⟨k1, k2⟩ := fieldValues_some ho
      refine ⟨fun n => by rw [k1]; exact (get_fields (any := any) hq hd n).2.2, ?_, ?_⟩
      · intro n hn
        obtain ⟨e, he, rfl⟩ := List.mem_map.1 hn
        apply (get_fields (any := any) hq hd e.1).2.2.1
        by_contra hc
        exact hk (List.any_eq_true.2 ⟨e, he, decide_eq_true hc⟩)
      · -- the field has the default of the parameter
        have hfield : ∀ f, f = q ∨ f = d → ∀ p ∈ f.params.tail, ∃ a,
            Dict.get (merge (entries any q.params.tail) (entries any d.params.tail)) p.name = some (a, p.default) := by
          rintro f (rfl | rfl) p hp
          · by_cases htd : Takes d p.name
            · obtain ⟨p', hp', e⟩ := htd
              have hdef : p'.default = p.default := by
                rcases (hc p hp p' hp' e.symm).2 with ⟨h1, h2⟩ | ⟨v, v', h1, h2, h3⟩
                · rw [h1, h2]
                · rw [h1, h2, hne v v' h3]
              exact ⟨_, by rw [(get_fields (any := any) hq hd p.name).1 p' hp' e, hdef]⟩
            · exact ⟨_, (get_fields (any := any) hq hd p.name).2.1 p hp rfl htd⟩
          · exact ⟨_, (get_fields (any := any) hq hd p.name).1 p hp rfl⟩
        intro f hf p hp v hv
        obtain ⟨a, ha⟩ := hfield f hf p hp
        rw [k2, ha] at hv
        simp only [Option.bind_some, fieldValue] at hv
        cases hg : Dict.get kwargs p.name with
        | some w =>
          rw [hg] at hv
          exact Or.inl hv
        | none =>
          rw [hg] at hv
          exact Or.inr ⟨rfl, hv⟩

/-- **C110.**  A tensor quantized with the function made has the data `quantize` computes, and is dequantized to what
`dequantize` computes of it, where each of them gets for its parameters the values given, else its defaults (for values
that Python compares as equal only if they are the same). -/
theorem calls_both (any : A) (ne : V → V → Bool) (hne : ∀ v v', ne v v' = false → v = v') (unhashable : V → Bool)
    (q d : Fn V A D) (hq : WellFormed q) (hd : WellFormed d) (t : ParamsType V A)
    (ht : makeParams any ne unhashable q d = .ok t) (data raw : D) (kwargs o : List (String × V))
    (h : quantizeFunc t q data kwargs = .ok (raw, o)) :
    ∃ bq bd, Bound q kwargs bq ∧ raw = q.body data bq ∧ Bound d kwargs bd ∧ dequantize t d raw o = .ok (d.body raw bd) := by
  obtain ⟨_, rfl⟩ := (makeParams_ok_iff hq hd).1 ht
  unfold quantizeFunc at h
  by_cases hdata : "data" ∈ Dict.keys kwargs
  · rw [if_pos hdata] at h; cases h
  · rw [if_neg hdata] at h
    cases hc : construct _ kwargs with
    | error e => rw [hc] at h; cases h
    | ok o' =>
      rw [hc] at h
      dsimp only at h
      obtain ⟨s1, s2, s3⟩ := construct_spec hne hq hd ht hc
      obtain ⟨bq, q1, q2, q3⟩ := call_select hq data (o := o') (fun p hp => (s1 p.name).2 (Or.inl ⟨p, hp, rfl⟩))
      unfold quantize at h
      dsimp only at h
      rw [q1] at h
      cases h
      obtain ⟨bd, d1, d2, d3⟩ := call_select hd (q.body data bq) (o := o) (fun p hp => (s1 p.name).2 (Or.inr ⟨p, hp, rfl⟩))
      have bound : ∀ f, f = q ∨ f = d → ∀ b : List (String × V), b.map Prod.fst = f.params.tail.map Param.name →
          (∀ n v, (n, v) ∈ b → Dict.get o n = some v) → Bound f kwargs b := by
        intro f hf b hb hv
        refine ⟨hb, fun p hp v hm => ?_⟩
        rcases s3 f hf p hp v (hv _ _ hm) with h | ⟨h1, h2⟩
        · exact Or.inl (Dict.get_mem h)
        · exact Or.inr ⟨Dict.get_none_iff.1 h1, h2⟩
      exact ⟨bq, bd, bound q (Or.inl rfl) bq q2 q3, rfl, bound d (Or.inr rfl) bd d2 d3, d1⟩

theorem overlay_get (o : List (String × V)) : ∀ (changes : List (String × V)) (n : String),
    Dict.get (o.foldl (fun m e => if e.1 ∈ Dict.keys m then m else m ++ [e]) changes) n =
      (match Dict.get changes n with | some v => some v | none => Dict.get o n) := by
  induction o with
  | nil =>
    intro changes n
    simp only [List.foldl_nil, Dict.get]
    cases Dict.get changes n <;> rfl
  | cons e o ih =>
    intro changes n
    obtain ⟨k, v⟩ := e
    rw [List.foldl_cons, ih]
    simp only [Dict.get]
    by_cases hk : k ∈ Dict.keys changes
    · rw [if_pos hk]
      by_cases hn : k = n
      · subst hn
        obtain ⟨w, hw⟩ := Option.isSome_iff_exists.1 (Dict.get_isSome_iff.2 hk)
        rw [hw]
      · rw [if_neg hn]
    · rw [if_neg hk, ← Dict.set_new hk, Dict.get_set]
      by_cases hn : k = n
      · subst hn
        rw [if_pos rfl, if_pos rfl, Dict.get_none_iff.2 hk]
      · rw [if_neg hn, if_neg hn]

theorem overlay_keys (o : List (String × V)) : ∀ (changes : List (String × V)) (n : String),
    n ∈ Dict.keys (o.foldl (fun m e => if e.1 ∈ Dict.keys m then m else m ++ [e]) changes) ↔
      n ∈ Dict.keys changes ∨ n ∈ Dict.keys o := by
  intro changes n
  rw [← Dict.get_isSome_iff, overlay_get, ← Dict.get_isSome_iff, ← Dict.get_isSome_iff]
  cases Dict.get changes n <;> simp

/-- **C110.**  Parameters can be changed afterwards, all names of parameters of the two functions and no others, and
`dequantize` then gets the changed values, and those it got before for all others. -/
theorem with_changes_reaches_dequantize (any : A) (ne : V → V → Bool) (hne : ∀ v v', ne v v' = false → v = v')
    (unhashable : V → Bool) (q d : Fn V A D) (hq : WellFormed q) (hd : WellFormed d) (t : ParamsType V A)
    (ht : makeParams any ne unhashable q d = .ok t) (raw : D) (kwargs o changes : List (String × V))
    (h : construct t kwargs = .ok o) :
    ((∃ o', withChanges t o changes = .ok o') ↔ ∀ n ∈ changes.map Prod.fst, Takes q n ∨ Takes d n) ∧
    ∀ o', withChanges t o changes = .ok o' → ∃ b,
      Bound d (changes ++ kwargs.filter (fun e => e.1 ∉ changes.map Prod.fst)) b ∧
      dequantize t d raw o' = .ok (d.body raw b) := by
  obtain ⟨s1, s2, s3⟩ := construct_spec hne hq hd ht h
  refine ⟨⟨?_, ?_⟩, ?_⟩
  · rintro ⟨o', ho'⟩ n hn
    exact (construct_spec hne hq hd ht ho').2.1 n ((overlay_keys o changes n).2 (Or.inl hn))
  · intro hn
    obtain ⟨_, rfl⟩ := (makeParams_ok_iff hq hd).1 ht
    unfold withChanges construct
    rw [if_neg]
    · have hdef : ∃ o', fieldValues (o.foldl (fun m e => if e.1 ∈ Dict.keys m then m else m ++ [e]) changes)
          (merge (entries any q.params.tail) (entries any d.params.tail)) = some o' := by
        rw [fieldValues_defined]
        intro f hf _
        rw [overlay_keys]
        exact Or.inr ((s1 f.1).2 ((get_fields (any := any) hq hd f.1).2.2.1 (List.mem_map_of_mem hf)))
      obtain ⟨o', ho'⟩ := hdef
      dsimp only
      rw [ho']
      exact ⟨o', rfl⟩
    · intro ha
      obtain ⟨e, he, hx⟩ := List.any_eq_true.1 ha
      have hmem : e.1 ∈ Dict.keys (o.foldl (fun m e => if e.1 ∈ Dict.keys m then m else m ++ [e]) changes) :=
        List.mem_map_of_mem he
      have : Takes q e.1 ∨ Takes d e.1 := by
        rcases (overlay_keys o changes e.1).1 hmem with h | h
        · exact hn e.1 h
        · exact (s1 e.1).1 h
      exact absurd ((get_fields (any := any) hq hd e.1).2.2.2 this) (of_decide_eq_true hx)
  · intro o' ho'
    obtain ⟨r1, r2, r3⟩ := construct_spec hne hq hd ht ho'
    obtain ⟨_, rfl⟩ := (makeParams_ok_iff hq hd).1 ht
    obtain ⟨bd, d1, d2, d3⟩ := call_select hd raw (o := o') (fun p hp => (r1 p.name).2 (Or.inr ⟨p, hp, rfl⟩))
    refine ⟨bd, ⟨d2, fun p hp v hm => ?_⟩, d1⟩
    have hov := r3 d (Or.inr rfl) p hp v (d3 _ _ hm)
    rw [overlay_get] at hov
    cases hg : Dict.get changes p.name with
    | some w =>
      rw [hg] at hov
      dsimp only at hov
      rcases hov with h | ⟨h, _⟩
      · cases h
        exact Or.inl (List.mem_append_left _ (Dict.get_mem hg))
      · cases h
    | none =>
      rw [hg] at hov
      dsimp only at hov
      have hnc : p.name ∉ changes.map Prod.fst := Dict.get_none_iff.1 hg
      have hov' : Dict.get o p.name = some v := by
        rcases hov with h | ⟨h, _⟩
        · exact h
        · have := Dict.get_none_iff.1 h
          exact absurd ((s1 p.name).2 (Or.inr ⟨p, hp, rfl⟩)) this
      rcases s3 d (Or.inr rfl) p hp v hov' with h | ⟨h1, h2⟩
      · left
        apply List.mem_append_right
        rw [List.mem_filter]
        exact ⟨Dict.get_mem h, by simpa using hnc⟩
      · refine Or.inr ⟨?_, h2⟩
        rw [List.map_append, List.mem_append]
        rintro (hx | hx)
        · exact hnc hx
        · obtain ⟨e, he, hen⟩ := List.mem_map.1 hx
          exact Dict.get_none_iff.1 h1 (by rw [← hen]; exact List.mem_map_of_mem (List.mem_filter.1 he).1)

end

/-! ## Deviations -/

/-- A function of the examples: data is a number, and the body adds up the values of the parameters. -/
def sumFn (ps : List (Param Nat Nat)) : Fn Nat Nat Nat where
  params := { name := "x" } :: ps
  body := fun data b => data + (b.map Prod.snd).sum

/-- **C110, deviation.**  A parameter without a default that only `dequantize` has, or that follows one with a default by
keyword, makes the two functions unusable together, although every call with keywords would say what is meant. -/
theorem required_after_optional_refused :
    (∀ t, makeParams 0 (fun a b => decide (a ≠ b)) (fun _ => false)
      (sumFn [{ name := "scale" }, { name := "bits", default := some 8 }]) (sumFn [{ name := "scale" }, { name := "zero" }]) ≠
      .ok t) ∧
    (∀ t, makeParams 0 (fun a b => decide (a ≠ b)) (fun _ => false)
      (sumFn [{ name := "bits", kind := .keywordOnly, default := some 8 }, { name := "scale", kind := .keywordOnly }])
      (sumFn []) ≠ .ok t) := by
  constructor
  · intro t h
    have e : makeParams 0 (fun a b => decide (a ≠ b)) (fun _ => false)
      (sumFn [{ name := "scale" }, { name := "bits", default := some 8 }]) (sumFn [{ name := "scale" }, { name := "zero" }]) =
      .error .typeError := rfl
    rw [e] at h
    cases h
  · intro t h
    have e : makeParams 0 (fun a b => decide (a ≠ b)) (fun _ => false)
      (sumFn [{ name := "bits", kind := .keywordOnly, default := some 8 }, { name := "scale", kind := .keywordOnly }])
      (sumFn []) = .error .typeError := rfl
    rw [e] at h
    cases h

/-- **C110, deviation.**  Defaults that Python compares as equal, such as `1` and `True`, need not be the same: `quantize`
is then called with the default of `dequantize`. -/
theorem equal_defaults_replaced : ∃ (ne : Nat → Nat → Bool) (q d : Fn Nat Nat Nat) (t : ParamsType Nat Nat) (o : List (String × Nat)),
    ne 1 2 = false ∧ WellFormed q ∧ WellFormed d ∧ q.params.tail = [{ name := "n", default := some 1 }] ∧
    makeParams 0 ne (fun _ => false) q d = .ok t ∧ quantizeFunc t q 0 [] = .ok (q.body 0 [("n", 2)], o) ∧
    q.body 0 [("n", 2)] ≠ q.body 0 [("n", 1)] :=
  ⟨fun _ _ => false, sumFn [{ name := "n", default := some 1 }], sumFn [{ name := "n", default := some 2 }], _, _, rfl,
    ⟨by decide, _, _, rfl, by decide, by decide⟩, ⟨by decide, _, _, rfl, by decide, by decide⟩, rfl, rfl, rfl, by decide⟩

/-- **C110, deviation.**  A parameter named `data` other than the first cannot be given. -/
theorem data_parameter_unusable : ∃ (q d : Fn Nat Nat Nat) (t : ParamsType Nat Nat), WellFormed q ∧ WellFormed d ∧
    makeParams 0 (fun a b => decide (a ≠ b)) (fun _ => false) q d = .ok t ∧ Takes d "data" ∧
    ∀ data kwargs r, quantizeFunc t q data kwargs ≠ .ok r := by
  refine ⟨sumFn [], sumFn [{ name := "data" }], _, ⟨by decide, _, _, rfl, by decide, by decide⟩,
    ⟨by decide, _, _, rfl, by decide, by decide⟩, rfl, ⟨_, List.mem_cons_self, rfl⟩, ?_⟩
  intro data kwargs r h
  have := (accepted_iff 0 (fun a b => decide (a ≠ b)) (fun _ => false) (sumFn []) (sumFn [{ name := "data" }])
    ⟨by decide, _, _, rfl, by decide, by decide⟩ ⟨by decide, _, _, rfl, by decide, by decide⟩ _ rfl data kwargs).1 ⟨r, h⟩
  exact this.1 (this.2.2 _ (Or.inr rfl) { name := "data" } List.mem_cons_self rfl)

/-! ## Concrete cases -/

/-- `quantize(x, scale, bits)`. -/
def exQ : Fn Nat Nat Nat := sumFn [{ name := "scale" }, { name := "bits", default := some 8 }]
/-- `dequantize(x, scale)`. -/
def exD : Fn Nat Nat Nat := sumFn [{ name := "scale" }]

example : WellFormed exQ ∧ WellFormed exD :=
  ⟨⟨by decide, _, _, rfl, by decide, by decide⟩, ⟨by decide, _, _, rfl, by decide, by decide⟩⟩

/-- The class of parameters of the example. -/
def exT : ParamsType Nat Nat := ⟨["scale", "bits"], ["scale"], [("scale", (0, none)), ("bits", (0, some 8))]⟩

example : makeParams 0 (fun a b => decide (a ≠ b)) (fun _ => false) exQ exD = .ok exT := rfl
example : quantizeFunc exT exQ 100 [("scale", 3)] = .ok (111, [("scale", 3), ("bits", 8)]) := rfl
example : dequantize exT exD 111 [("scale", 3), ("bits", 8)] = .ok 114 := rfl
example : withChanges exT [("scale", 3), ("bits", 8)] [("scale", 5)] = .ok [("scale", 5), ("bits", 8)] := rfl
example : quantizeFunc exT exQ 100 [("bits", 3)] = .error .typeError := rfl

end FF.CreateFn
