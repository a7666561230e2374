/-!
# Mocked packages

Models `PackageMock` of `testing/package_mock.py` together with what Python's import system does with it: modules that are loaded already are used first,
then the finders on `sys.meta_path` are asked from the front.

Simplifications: names of modules are lists of their parts, the last part first, so that the parent is the tail. Other finders than mocks are one function
that says which modules exist. A module's source is not executed: imports in it are imports like others, and a source that raises is left out. Attributes of
modules are left out, except whether a module is a package. `import` gives the module of the full name, like `importlib.import_module`.
-/

namespace FF.PkgMock

/-! ## Model -/

/-- `a.b.c` is `["c", "b", "a"]`. -/
abbrev Name := List String

/-- Modules in `sys.modules`. -/
inductive Mod where
  /-- any module that is no mock -/
  | real (id : Nat)
  /-- made by a mock: which entering made it, its source, and whether it is a package -/
  | mock (finder : Nat) (src : String) (pkg : Bool)
  deriving DecidableEq, Repr

/-- `_PackageMockFinder`: package_mock.py:123-126. `sources` here are the registered ones; packages without source are added by `sourceOf`. -/
structure Finder where
  id : Nat
  sources : List (Name × String)
  deriving DecidableEq, Repr

/-- The proper parents of a name: package_mock.py:117-119. -/
def parents : Name → List Name
  | [] => []
  | _ :: p => if p = [] then [] else p :: parents p

/-- package_mock.py:114-120 `_infer_parent_packages`. -/
def inferPackages (names : List Name) : List Name := names.flatMap parents

/-- `d.get(k)`. -/
def get : List (Name × String) → Name → Option String
  | [], _ => none
  | (k, v) :: d, n => if k = n then some v else get d n

/-- `d[k] = v`. -/
def set : List (Name × String) → Name → String → List (Name × String)
  | [], n, s => [(n, s)]
  | (k, v) :: d, n, s => if k = n then (n, s) :: d else (k, v) :: set d n s

/-- `fullname in self.packages`. -/
def Finder.isPackage (f : Finder) (n : Name) : Bool := (inferPackages (f.sources.map Prod.fst)).contains n

/-- `self.sources.get(name)`, where package_mock.py:85-87 adds parents with an empty source. -/
def Finder.sourceOf (f : Finder) (n : Name) : Option String :=
  match get f.sources n with
  | some s => some s
  | none => if f.isPackage n then some "" else none

/-- The state of the interpreter, as far as imports are concerned. -/
structure St where
  /-- the mocks on `sys.meta_path` -/
  metaPath : List Finder
  /-- `sys.modules` -/
  mods : Name → Option Mod
  /-- sources in `linecache.cache` for mocked modules -/
  lines : Name → Option String
  /-- `_finder` of each `PackageMock` -/
  finder : Nat → Option Finder
  /-- how many finders were made -/
  next : Nat

/-- What there is besides mocks: modules that the other finders find, which of them are packages, and what was registered with each `PackageMock`. -/
structure World where
  real : Name → Option Nat
  realPkg : Nat → Bool
  reg : Nat → List (Name × String)

variable (w : World)

/-- `hasattr(module, "__path__")`. -/
def Mod.isPkg : Mod → Bool
  | .real i => w.realPkg i
  | .mock _ _ p => p

/-- Put a module into `sys.modules`. -/
def St.load (s : St) (n : Name) (m : Mod) : St := { s with mods := fun k => if k = n then some m else s.mods k }

/-- package_mock.py:157-165: the source goes into `linecache.cache`. -/
def St.addLines (s : St) (n : Name) (src : String) : St := { s with lines := fun k => if k = n then some src else s.lines k }

/-- Asking the finders for a module that is not loaded, and loading it: `find_spec` and `exec_module`, package_mock.py:128-168. A mocked package has an empty
`__path__`, so that other finders find nothing in it. -/
def findAndLoad (n : Name) (parent : Option Mod) (s : St) : St × Option Mod :=
  match s.metaPath.find? (fun f => (f.sourceOf n).isSome) with
  | some f =>
    let src := (f.sourceOf n).getD ""
    let m := Mod.mock f.id src (f.isPackage n)
    ((s.load n m).addLines n src, some m)
  | none =>
    match parent with
    | some (.mock _ _ _) => (s, none)
    | _ =>
      match w.real n with
      | some r => (s.load n (.real r), some (.real r))
      | none => (s, none)

/-- `importlib.import_module(name)`: a loaded module, or after importing its parent, which must be a package, the module that is found. -/
def imp : Name → St → St × Option Mod
  | [], s => (s, none)
  | x :: p, s =>
    match s.mods (x :: p) with
    | some m => (s, some m)
    | none =>
      if p = [] then findAndLoad w (x :: p) none s
      else
        match imp p s with
        | (s', none) => (s', none)
        | (s', some pm) => if pm.isPkg w then findAndLoad w (x :: p) (some pm) s' else (s', none)

/-- package_mock.py:79-90 `__enter__`; `none` is the `RuntimeError` if nothing is registered. -/
def enter (i : Nat) (s : St) : Option St :=
  if w.reg i = [] then none
  else
    let f : Finder := ⟨s.next, w.reg i⟩
    some { s with metaPath := f :: s.metaPath, finder := fun j => if j = i then some f else s.finder j, next := s.next + 1 }

/-- `sys.meta_path.remove(finder)`, by identity. -/
def removeFinder (f : Finder) : List Finder → List Finder
  | [] => []
  | g :: gs => if g.id = f.id then gs else g :: removeFinder f gs

/-- package_mock.py:92-111 `__exit__`. -/
def exit (i : Nat) (s : St) : St :=
  match s.finder i with
  | none => s
  | some f =>
    { s with
      metaPath := removeFinder f s.metaPath
      mods := fun n => if (f.sourceOf n).isSome then none else s.mods n
      lines := fun n => if (f.sourceOf n).isSome then none else s.lines n
      finder := fun j => if j = i then none else s.finder j }

/-- Programs that import modules and use mocks in `with` blocks. Exceptions are caught where they occur; a program that is ended by one does what the part
of it up to there does. -/
inductive Prog where
  | skip
  | imp (n : Name)
  | seq (a b : Prog)
  /-- `with mock_i: body` -/
  | withMock (i : Nat) (body : Prog)

/-- Running a program. -/
def exec : Prog → St → St
  | .skip, s => s
  | .imp n, s => (imp w n s).1
  | .seq a b, s => exec b (exec a s)
  | .withMock i body, s =>
    match enter w i s with
    | none => s
    | some s' => exit i (exec body s')

/-- A `PackageMock` while modules are registered: package_mock.py:60-65. -/
structure Mock where
  sources : List (Name × String)
  active : Bool

inductive AddErr where
  | runtimeError
  | valueError
  deriving DecidableEq, Repr

/-- package_mock.py:67-77 `add_module`; `ident` is `str.isidentifier`. Simplification: without `textwrap.dedent`. -/
def addModule (ident : String → Bool) (m : Mock) (n : Name) (src : String) : Except AddErr Mock :=
  if m.active then .error .runtimeError
  else if n = [] || !n.all ident then .error .valueError
  else .ok { m with sources := set m.sources n src }

/-! ## Specification -/

/-- `n` is mocked by what is registered in `reg`: it is registered, or a parent of something registered. -/
def Mocked (reg : List (Name × String)) (n : Name) : Prop := n ≠ [] ∧ ∃ e ∈ reg, n <:+ e.1

/-- `n` is a proper parent of something registered. -/
def Package (reg : List (Name × String)) (n : Name) : Prop := n ≠ [] ∧ ∃ e ∈ reg, n <:+ e.1 ∧ n ≠ e.1

/-- The source of a mocked name: the one registered, or nothing. Names are registered once. -/
def Source (reg : List (Name × String)) (n : Name) (src : String) : Prop :=
  (n, src) ∈ reg ∨ ((∀ s, (n, s) ∉ reg) ∧ src = "")

/-- No mock is entered again while it is in use; `A` are those in use. -/
def NoReentry : List Nat → Prog → Prop
  | _, .skip => True
  | _, .imp _ => True
  | A, .seq a b => NoReentry A a ∧ NoReentry A b
  | A, .withMock i b => i ∉ A ∧ NoReentry (i :: A) b

/-- The mocks that a program uses. -/
def Uses : Prog → Nat → Prop
  | .skip, _ => False
  | .imp _, _ => False
  | .seq a b, i => Uses a i ∨ Uses b i
  | .withMock j b, i => i = j ∨ Uses b i

/-- Registered as a dictionary: one source for each name, and no empty name. -/
def Dictionary (reg : List (Name × String)) : Prop := (reg.map Prod.fst).Nodup ∧ ∀ e ∈ reg, e.1 ≠ []

/-- Importing several modules, one after the other. -/
def imports (ns : List Name) : Prog := ns.foldr (fun n p => .seq (.imp n) p) .skip

/-! ## Lemmas -/

theorem mem_parents : ∀ (e n : Name), n ∈ parents e ↔ n ≠ [] ∧ n <:+ e ∧ n ≠ e
  | [], n => by
    simp only [parents, List.not_mem_nil, false_iff]
    rintro ⟨h, hs, -⟩
    exact h (List.suffix_nil.1 hs)
  | x :: p, n => by
    rw [parents]
    by_cases hp : p = []
    · rw [if_pos hp]
      subst hp
      simp only [List.not_mem_nil, false_iff]
      rintro ⟨h, hs, hne⟩
      rcases List.suffix_cons_iff.1 hs with h1 | h1
      · exact hne h1
      · exact h (List.suffix_nil.1 h1)
    · rw [if_neg hp, List.mem_cons, mem_parents p n]
      constructor
      · rintro (rfl | ⟨h1, h2, h3⟩)
        · exact ⟨hp, List.suffix_cons _ _, fun h => by have := congrArg List.length h; simp at this⟩
        · refine ⟨h1, h2.trans (List.suffix_cons _ _), fun h => ?_⟩
          subst h
          have := h2.length_le
          simp at this
          omega
      · rintro ⟨h1, h2, h3⟩
        rcases List.suffix_cons_iff.1 h2 with h | h
        · exact absurd h h3
        · by_cases hn : n = p
          · exact .inl hn
          · exact .inr ⟨h1, h, hn⟩

theorem isPackage_iff (f : Finder) (n : Name) : f.isPackage n = true ↔ Package f.sources n := by
  unfold Finder.isPackage inferPackages Package
  rw [List.contains_iff_mem, List.mem_flatMap]
  constructor
  · rintro ⟨e, he, hn⟩
    obtain ⟨e', he', rfl⟩ := List.mem_map.1 he
    obtain ⟨h1, h2, h3⟩ := (mem_parents _ _).1 hn
    exact ⟨h1, e', he', h2, h3⟩
  · rintro ⟨h1, e, he, h2, h3⟩
    exact ⟨e.1, List.mem_map_of_mem he, (mem_parents _ _).2 ⟨h1, h2, h3⟩⟩

theorem get_mem {d : List (Name × String)} {n : Name} {s : String} (h : get d n = some s) : (n, s) ∈ d := by
  induction d with
  | nil => cases h
  | cons e d ih =>
    obtain ⟨k, v⟩ := e
    rw [get] at h
    by_cases hk : k = n
    · rw [if_pos hk] at h
      injection h with h
      subst hk h
      exact List.mem_cons_self
    · rw [if_neg hk] at h
      exact List.mem_cons_of_mem _ (ih h)

theorem get_none {d : List (Name × String)} {n : Name} (h : get d n = none) (s : String) : (n, s) ∉ d := by
  induction d with
  | nil => simp
  | cons e d ih =>
    obtain ⟨k, v⟩ := e
    rw [get] at h
    by_cases hk : k = n
    · rw [if_pos hk] at h; cases h
    · rw [if_neg hk] at h
      intro hm
      rcases List.mem_cons.1 hm with hh | hh
      · injection hh with h1 h2
        exact hk h1.symm
      · exact ih h hh

theorem sourceOf_isSome (f : Finder) (hd : ∀ e ∈ f.sources, e.1 ≠ []) (n : Name) : (f.sourceOf n).isSome = true ↔ Mocked f.sources n := by
  unfold Finder.sourceOf Mocked
  cases h : get f.sources n with
  | some s =>
    have hm := get_mem h
    simp only [Option.isSome_some, true_iff]
    exact ⟨hd _ hm, (n, s), hm, List.suffix_refl n⟩
  | none =>
    by_cases hp : f.isPackage n = true
    · simp only [hp, if_true, Option.isSome_some, true_iff]
      obtain ⟨h1, e, he, h2, -⟩ := (isPackage_iff f n).1 hp
      exact ⟨h1, e, he, h2⟩
    · simp only [hp]
      constructor
      · intro hh; cases hh
      · rintro ⟨h1, e, he, h2⟩
        exfalso
        by_cases hne : n = e.1
        · subst hne
          exact get_none h e.2 he
        · exact hp ((isPackage_iff f n).2 ⟨h1, e, he, h2, hne⟩)

theorem sourceOf_source (f : Finder) {n : Name} {src : String} (h : f.sourceOf n = some src) : Source f.sources n src := by
  unfold Finder.sourceOf at h
  cases hg : get f.sources n with
  | some s =>
    rw [hg] at h
    injection h with h
    subst h
    exact .inl (get_mem hg)
  | none =>
    rw [hg] at h
    by_cases hp : f.isPackage n = true
    · simp only [hp, if_true] at h
      injection h with h
      exact .inr ⟨get_none hg, h.symm⟩
    · simp [hp] at h

/-- What an import leaves alone. -/
theorem imp_frame (n : Name) : ∀ s, (imp w n s).1.metaPath = s.metaPath ∧ (imp w n s).1.finder = s.finder ∧ (imp w n s).1.next = s.next := by
  have hf : ∀ n parent s, (findAndLoad w n parent s).1.metaPath = s.metaPath ∧ (findAndLoad w n parent s).1.finder = s.finder ∧
      (findAndLoad w n parent s).1.next = s.next := by
    intro n parent s
    unfold findAndLoad
    cases h : s.metaPath.find? (fun f => (f.sourceOf n).isSome) with
    | some f => exact ⟨rfl, rfl, rfl⟩
    | none =>
      rcases parent with _ | ⟨i⟩ | ⟨_, _, _⟩
      · cases w.real n <;> exact ⟨rfl, rfl, rfl⟩
      · cases w.real n <;> exact ⟨rfl, rfl, rfl⟩
      · exact ⟨rfl, rfl, rfl⟩
  induction n with
  | nil => exact fun s => ⟨rfl, rfl, rfl⟩
  | cons x p ih =>
    intro s
    rw [imp]
    cases hm : s.mods (x :: p) with
    | some m => exact ⟨rfl, rfl, rfl⟩
    | none =>
      by_cases hp : p = []
      · simp only [hp, if_true]
        exact hf _ _ _
      · simp only [hp, if_false]
        rcases hi : imp w p s with ⟨s', _ | pm⟩
        · have := ih s
          rw [hi] at this
          exact this
        · have h1 := ih s
          rw [hi] at h1
          by_cases hk : pm.isPkg w = true
          · simp only [hk, if_true]
            have h2 := hf (x :: p) (some pm) s'
            exact ⟨h2.1.trans h1.1, h2.2.1.trans h1.2.1, h2.2.2.trans h1.2.2⟩
          · simp only [hk]
            exact h1

/-- Well-nested programs leave `sys.meta_path` and the mocks as they found them. -/
theorem exec_frame (p : Prog) : ∀ (A : List Nat) (s : St), NoReentry A p → (∀ i, (s.finder i).isSome = true → i ∈ A) →
    (exec w p s).metaPath = s.metaPath ∧ (exec w p s).finder = s.finder := by
  induction p with
  | skip => exact fun _ _ _ _ => ⟨rfl, rfl⟩
  | imp n => exact fun A s _ _ => ⟨(imp_frame w n s).1, (imp_frame w n s).2.1⟩
  | seq a b iha ihb =>
    intro A s h ha
    obtain ⟨h1, h2⟩ := iha A s h.1 ha
    obtain ⟨h3, h4⟩ := ihb A (exec w a s) h.2 (by rw [h2]; exact ha)
    exact ⟨h3.trans h1, h4.trans h2⟩
  | withMock i b ih =>
    intro A s h ha
    rw [exec]
    unfold enter
    by_cases hr : w.reg i = []
    · simp only [hr, if_true]
      exact ⟨trivial, trivial⟩
    · simp only [hr, if_false]
      have hi : s.finder i = none := by
        cases hf : s.finder i with
        | none => rfl
        | some f => exact absurd (ha i (by rw [hf]; rfl)) h.1
      obtain ⟨h1, h2⟩ := ih (i :: A) ⟨⟨s.next, w.reg i⟩ :: s.metaPath, s.mods, s.lines,
        fun j => if j = i then some ⟨s.next, w.reg i⟩ else s.finder j, s.next + 1⟩ h.2 (by
          intro j hj
          by_cases hji : j = i
          · exact hji ▸ List.mem_cons_self
          · simp only [hji, if_false] at hj
            exact List.mem_cons_of_mem _ (ha j hj))
      unfold exit
      rw [h2]
      simp only [if_true]
      rw [h1]
      simp only [removeFinder, if_true]
      refine ⟨trivial, ?_⟩
      funext j
      by_cases hji : j = i
      · simp [hji, hi]
      · simp [hji]

theorem findAndLoad_other (n k : Name) (parent : Option Mod) (s : St) (h : k ≠ n) :
    (findAndLoad w n parent s).1.mods k = s.mods k ∧ (findAndLoad w n parent s).1.lines k = s.lines k := by
  unfold findAndLoad
  cases hf : s.metaPath.find? (fun f => (f.sourceOf n).isSome) with
  | some f => simp [St.load, St.addLines, h]
  | none =>
    rcases parent with _ | ⟨i⟩ | ⟨_, _, _⟩
    · cases w.real n <;> simp [St.load, h]
    · cases w.real n <;> simp [St.load, h]
    · exact ⟨rfl, rfl⟩

theorem findAndLoad_self (n : Name) (parent : Option Mod) (s : St) (h : s.mods n = none) :
    (findAndLoad w n parent s).1.mods n = (findAndLoad w n parent s).2 := by
  unfold findAndLoad
  cases hf : s.metaPath.find? (fun f => (f.sourceOf n).isSome) with
  | some f => simp [St.load, St.addLines]
  | none =>
    rcases parent with _ | ⟨i⟩ | ⟨_, _, _⟩
    · cases w.real n <;> simp [St.load, h]
    · cases w.real n <;> simp [St.load, h]
    · exact h

/-- An import changes only the entries of the name and its parents. -/
theorem imp_other (n : Name) : ∀ (s : St) (k : Name), ¬ k <:+ n → (imp w n s).1.mods k = s.mods k ∧ (imp w n s).1.lines k = s.lines k := by
  induction n with
  | nil => exact fun s k _ => ⟨rfl, rfl⟩
  | cons x p ih =>
    intro s k hk
    have hk1 : k ≠ x :: p := fun h => hk (h ▸ List.suffix_refl _)
    have hk2 : ¬ k <:+ p := fun h => hk (h.trans (List.suffix_cons _ _))
    rw [imp]
    cases hm : s.mods (x :: p) with
    | some m => exact ⟨rfl, rfl⟩
    | none =>
      by_cases hp : p = []
      · simp only [hp, if_true]
        subst hp
        exact findAndLoad_other w _ _ _ _ hk1
      · simp only [hp, if_false]
        have h1 := ih s k hk2
        rcases hi : imp w p s with ⟨s', _ | pm⟩
        · rw [hi] at h1
          exact h1
        · rw [hi] at h1
          by_cases hq : pm.isPkg w = true
          · simp only [hq, if_true]
            have h2 := findAndLoad_other w (x :: p) k (some pm) s' hk1
            exact ⟨h2.1.trans h1.1, h2.2.trans h1.2⟩
          · simp only [hq]
            exact h1

/-- What an import does to one entry: nothing, or the entry was empty and is filled with a mock of one of the finders or with the real module. -/
theorem imp_entry (n : Name) : ∀ (s : St) (k : Name),
    ((imp w n s).1.mods k = s.mods k ∧ (imp w n s).1.lines k = s.lines k) ∨
    (s.mods k = none ∧
      ((∃ f src, s.metaPath.find? (fun f => (f.sourceOf k).isSome) = some f ∧ f.sourceOf k = some src ∧
          (imp w n s).1.mods k = some (.mock f.id src (f.isPackage k)) ∧ (imp w n s).1.lines k = some src) ∨
        (s.metaPath.find? (fun f => (f.sourceOf k).isSome) = none ∧ ∃ r, w.real k = some r ∧ (imp w n s).1.mods k = some (.real r) ∧
          (imp w n s).1.lines k = s.lines k))) := by
  have hf : ∀ (n : Name) (parent : Option Mod) (s : St), s.mods n = none →
      ((findAndLoad w n parent s).1.mods n = s.mods n ∧ (findAndLoad w n parent s).1.lines n = s.lines n) ∨
      ((∃ f src, s.metaPath.find? (fun f => (f.sourceOf n).isSome) = some f ∧ f.sourceOf n = some src ∧
          (findAndLoad w n parent s).1.mods n = some (.mock f.id src (f.isPackage n)) ∧ (findAndLoad w n parent s).1.lines n = some src) ∨
        (s.metaPath.find? (fun f => (f.sourceOf n).isSome) = none ∧ ∃ r, w.real n = some r ∧
          (findAndLoad w n parent s).1.mods n = some (.real r) ∧ (findAndLoad w n parent s).1.lines n = s.lines n)) := by
    intro n parent s hn
    unfold findAndLoad
    cases hfd : s.metaPath.find? (fun f => (f.sourceOf n).isSome) with
    | some f =>
      have hs : (f.sourceOf n).isSome = true := by
        have := List.find?_some hfd
        simpa using this
      obtain ⟨src, hsrc⟩ := Option.isSome_iff_exists.1 hs
      refine .inr (.inl ⟨f, src, rfl, hsrc, ?_, ?_⟩)
      · simp [St.load, St.addLines, hsrc]
      · simp [St.load, St.addLines, hsrc]
    | none =>
      rcases parent with _ | ⟨i⟩ | ⟨_, _, _⟩
      · cases hr : w.real n with
        | none => exact .inl ⟨rfl, rfl⟩
        | some r => exact .inr (.inr ⟨rfl, r, rfl, by simp [St.load], rfl⟩)
      · cases hr : w.real n with
        | none => exact .inl ⟨rfl, rfl⟩
        | some r => exact .inr (.inr ⟨rfl, r, rfl, by simp [St.load], rfl⟩)
      · exact .inl ⟨rfl, rfl⟩
  induction n with
  | nil => exact fun s k => .inl ⟨rfl, rfl⟩
  | cons x p ih =>
    intro s k
    rw [imp]
    cases hm : s.mods (x :: p) with
    | some m => exact .inl ⟨rfl, rfl⟩
    | none =>
      by_cases hp : p = []
      · simp only [hp, if_true]
        subst hp
        by_cases hk : k = [x]
        · subst hk
          rcases hf [x] none s hm with h | h
          · exact .inl h
          · exact .inr ⟨hm, h⟩
        · exact .inl (findAndLoad_other w _ _ _ _ hk)
      · simp only [hp, if_false]
        have h1 := ih s k
        have hfr := imp_frame w p s
        have hot := imp_other w p s (x :: p) (fun h => by have := h.length_le; simp at this; omega)
        rcases hi : imp w p s with ⟨s', _ | pm⟩
        · rw [hi] at h1
          exact h1
        · rw [hi] at h1 hfr hot
          by_cases hq : pm.isPkg w = true
          · simp only [hq, if_true]
            by_cases hk : k = x :: p
            · subst hk
              have hm' : s'.mods (x :: p) = none := hot.1.trans hm
              have := hf (x :: p) (some pm) s' hm'
              rw [hfr.1] at this
              rw [hot.1, hot.2] at this
              rcases this with h | h
              · exact .inl h
              · exact .inr ⟨hm, h⟩
            · have h2 := findAndLoad_other w (x :: p) k (some pm) s' hk
              rw [h2.1, h2.2]
              exact h1
          · simp only [hq]
            exact h1

/-- What a successful import returns is in `sys.modules`. -/
theorem imp_result (n : Name) (s : St) (hn : n ≠ []) : (imp w n s).2 = (imp w n s).1.mods n := by
  cases n with
  | nil => exact absurd rfl hn
  | cons x p =>
    rw [imp]
    cases hm : s.mods (x :: p) with
    | some m => exact hm.symm
    | none =>
      by_cases hp : p = []
      · simp only [hp, if_true]
        subst hp
        exact (findAndLoad_self w _ _ _ hm).symm
      · simp only [hp, if_false]
        have hot := imp_other w p s (x :: p) (fun h => by have := h.length_le; simp at this; omega)
        rcases hi : imp w p s with ⟨s', _ | pm⟩
        · rw [hi] at hot
          exact (hot.1.trans hm).symm
        · rw [hi] at hot
          by_cases hq : pm.isPkg w = true
          · simp only [hq, if_true]
            exact (findAndLoad_self w _ _ _ (hot.1.trans hm)).symm
          · simp only [hq]
            exact (hot.1.trans hm).symm

/-- In a block of `f`: mocked names are not loaded, or loaded as mocks of `f`. -/
def InBlock (f : Finder) (s : St) : Prop :=
  (∃ rest, s.metaPath = f :: rest) ∧
  ∀ n src, f.sourceOf n = some src → s.mods n = none ∨ (s.mods n = some (.mock f.id src (f.isPackage n)) ∧ s.lines n = some src)

theorem imp_inBlock {f : Finder} {s : St} (h : InBlock f s) (n : Name) : InBlock f (imp w n s).1 := by
  obtain ⟨⟨rest, hr⟩, hm⟩ := h
  refine ⟨⟨rest, by rw [(imp_frame w n s).1]; exact hr⟩, fun k src hk => ?_⟩
  rcases imp_entry w n s k with ⟨h1, h2⟩ | ⟨h0, ⟨g, src', hg, hgs, h1, h2⟩ | ⟨hg, -⟩⟩
  · rw [h1, h2]
    exact hm k src hk
  · rw [hr, List.find?_cons_of_pos (by rw [hk]; rfl)] at hg
    injection hg with hg
    subst hg
    rw [hk] at hgs
    injection hgs with hgs
    subst hgs
    exact .inr ⟨h1, h2⟩
  · rw [hr, List.find?_cons_of_pos (by rw [hk]; rfl)] at hg
    cases hg

theorem mocked_parent {reg : List (Name × String)} {x : String} {p : Name} (hp : p ≠ []) (h : Mocked reg (x :: p)) : Package reg p := by
  obtain ⟨-, e, he, hs⟩ := h
  refine ⟨hp, e, he, (List.suffix_cons x p).trans hs, fun hh => ?_⟩
  rw [← hh] at hs
  have := hs.length_le
  simp at this
  omega

theorem package_mocked {reg : List (Name × String)} {n : Name} (h : Package reg n) : Mocked reg n := by
  obtain ⟨h1, e, he, h2, -⟩ := h
  exact ⟨h1, e, he, h2⟩

theorem imp_mocked {f : Finder} (hd : ∀ e ∈ f.sources, e.1 ≠ []) (n : Name) : ∀ (s : St), InBlock f s → Mocked f.sources n →
    ∃ src, f.sourceOf n = some src ∧ (imp w n s).2 = some (.mock f.id src (f.isPackage n)) ∧ (imp w n s).1.lines n = some src := by
  induction n with
  | nil => exact fun s _ h => absurd rfl h.1
  | cons x p ih =>
    intro s hs hm
    obtain ⟨src, hsrc⟩ := Option.isSome_iff_exists.1 ((sourceOf_isSome f hd _).2 hm)
    refine ⟨src, hsrc, ?_⟩
    have hload : ∀ parent (t : St), InBlock f t → (findAndLoad w (x :: p) parent t).2 = some (.mock f.id src (f.isPackage (x :: p))) ∧
        (findAndLoad w (x :: p) parent t).1.lines (x :: p) = some src := by
      intro parent t ht
      obtain ⟨⟨rest, hr⟩, -⟩ := ht
      unfold findAndLoad
      rw [hr, List.find?_cons_of_pos (by rw [hsrc]; rfl)]
      simp [hsrc, St.addLines]
    rw [imp]
    cases hmod : s.mods (x :: p) with
    | some m =>
      rcases hs.2 _ _ hsrc with h | h
      · rw [hmod] at h; cases h
      · rw [hmod] at h
        exact h
    | none =>
      by_cases hp : p = []
      · simp only [hp, if_true]
        subst hp
        exact hload none s hs
      · simp only [hp, if_false]
        have hpk := mocked_parent hp hm
        obtain ⟨psrc, -, hres, -⟩ := ih s hs (package_mocked hpk)
        have hin := imp_inBlock w hs p
        rcases hi : imp w p s with ⟨s', _ | pm⟩
        · rw [hi] at hres
          cases hres
        · rw [hi] at hres hin
          injection hres with hres
          subst hres
          have : (Mod.mock f.id psrc (f.isPackage p)).isPkg w = true := (isPackage_iff f p).2 hpk
          simp only [this, if_true]
          exact hload _ _ hin

theorem imp_unmocked {f : Finder} (n : Name) : ∀ (s : St) (rest : List Finder), s.metaPath = f :: rest →
    (∀ k, k <:+ n → f.sourceOf k = none) →
    (imp w n s).2 = (imp w n { s with metaPath := rest }).2 ∧
    { (imp w n s).1 with metaPath := rest } = (imp w n { s with metaPath := rest }).1 := by
  have hf : ∀ (n : Name) parent (s : St) (rest : List Finder), s.metaPath = f :: rest → f.sourceOf n = none →
      (findAndLoad w n parent s).2 = (findAndLoad w n parent { s with metaPath := rest }).2 ∧
      { (findAndLoad w n parent s).1 with metaPath := rest } = (findAndLoad w n parent { s with metaPath := rest }).1 := by
    intro n parent s rest hs hn
    unfold findAndLoad
    rw [hs, List.find?_cons_of_neg (by rw [hn]; simp)]
    simp only []
    cases hfd : rest.find? (fun f => (f.sourceOf n).isSome) with
    | some g => exact ⟨rfl, rfl⟩
    | none =>
      rcases parent with _ | ⟨i⟩ | ⟨_, _, _⟩
      · cases hr : w.real n <;> exact ⟨rfl, rfl⟩
      · cases hr : w.real n <;> exact ⟨rfl, rfl⟩
      · exact ⟨rfl, rfl⟩
  induction n with
  | nil => exact fun s rest _ _ => ⟨rfl, rfl⟩
  | cons x p ih =>
    intro s rest hs hk
    rw [imp, imp]
    simp only []
    cases hm : s.mods (x :: p) with
    | some m => exact ⟨rfl, rfl⟩
    | none =>
      simp only []
      by_cases hp : p = []
      · simp only [hp, if_true]
        subst hp
        exact hf _ _ _ _ hs (hk _ (List.suffix_refl _))
      · simp only [hp, if_false]
        obtain ⟨h1, h2⟩ := ih s rest hs (fun k hkp => hk k (hkp.trans (List.suffix_cons _ _)))
        have hfr := (imp_frame w p s).1
        rcases hi : imp w p s with ⟨s', r⟩
        rcases hj : imp w p { s with metaPath := rest } with ⟨t', r'⟩
        rw [hi, hj] at h1 h2
        rw [hi] at hfr
        simp only [] at h1 h2 hfr
        subst h1 h2
        cases r with
        | none => exact ⟨rfl, rfl⟩
        | some pm =>
          simp only []
          by_cases hq : pm.isPkg w = true
          · simp only [hq, if_true]
            exact hf _ _ _ _ (hfr.trans hs) (hk _ (List.suffix_refl _))
          · simp only [hq]
            exact ⟨rfl, rfl⟩

theorem exec_imports_inBlock {f : Finder} (ns : List Name) : ∀ s, InBlock f s → InBlock f (exec w (imports ns) s) := by
  induction ns with
  | nil => exact fun s h => h
  | cons n ns ih => exact fun s h => ih _ (imp_inBlock w h n)

/-- Entries that no mock touches. -/
theorem exec_entry (hreg : ∀ i, ∀ e ∈ w.reg i, e.1 ≠ []) (p : Prog) : ∀ (s : St) (n : Name),
    (∀ f ∈ s.metaPath, f.sourceOf n = none) → (∀ i f, s.finder i = some f → f.sourceOf n = none) →
    (∀ i, Uses p i → ¬ Mocked (w.reg i) n) →
    ((∀ f ∈ (exec w p s).metaPath, f.sourceOf n = none) ∧ (∀ i f, (exec w p s).finder i = some f → f.sourceOf n = none)) ∧
    ((exec w p s).mods n = s.mods n ∨ (s.mods n = none ∧ ∃ r, w.real n = some r ∧ (exec w p s).mods n = some (.real r))) ∧
    (exec w p s).lines n = s.lines n := by
  induction p with
  | skip => exact fun s n h1 h2 _ => ⟨⟨h1, h2⟩, .inl rfl, rfl⟩
  | imp m =>
    intro s n h1 h2 _
    rw [exec]
    obtain ⟨a, b, -⟩ := imp_frame w m s
    rw [a, b]
    refine ⟨⟨h1, h2⟩, ?_⟩
    have hnone : s.metaPath.find? (fun f => (f.sourceOf n).isSome) = none := by
      rw [List.find?_eq_none]
      intro f hf
      rw [h1 f hf]
      simp
    rcases imp_entry w m s n with ⟨h3, h4⟩ | ⟨h0, ⟨g, src', hg, -⟩ | ⟨-, r, hr, h3, h4⟩⟩
    · exact ⟨.inl h3, h4⟩
    · rw [hnone] at hg; cases hg
    · exact ⟨.inr ⟨h0, r, hr, h3⟩, h4⟩
  | seq a b iha ihb =>
    intro s n h1 h2 h3
    obtain ⟨⟨a1, a2⟩, a3, a4⟩ := iha s n h1 h2 (fun i hi => h3 i (.inl hi))
    obtain ⟨b12, b3, b4⟩ := ihb (exec w a s) n a1 a2 (fun i hi => h3 i (.inr hi))
    rw [exec]
    refine ⟨b12, ?_, b4.trans a4⟩
    rcases a3 with a3 | ⟨a0, r, hr, a3⟩
    · rw [a3] at b3
      exact b3
    · rcases b3 with b3 | ⟨b0, -⟩
      · exact .inr ⟨a0, r, hr, b3.trans a3⟩
      · rw [a3] at b0; cases b0
  | withMock i b ih =>
    intro s n h1 h2 h3
    rw [exec]
    cases he : enter w i s with
    | none => exact ⟨⟨h1, h2⟩, .inl rfl, rfl⟩
    | some s' =>
      unfold enter at he
      by_cases hr : w.reg i = []
      · rw [if_pos hr] at he; cases he
      · rw [if_neg hr] at he
        injection he with he
        have hnew : (⟨s.next, w.reg i⟩ : Finder).sourceOf n = none := by
          cases hs : (⟨s.next, w.reg i⟩ : Finder).sourceOf n with
          | none => rfl
          | some src =>
            exact absurd ((sourceOf_isSome ⟨s.next, w.reg i⟩ (hreg i) n).1 (by rw [hs]; rfl)) (h3 i (.inl rfl))
        obtain ⟨⟨b1, b2⟩, b3, b4⟩ := ih s' n (by
            subst he
            intro f hf
            rcases List.mem_cons.1 hf with rfl | hf
            · exact hnew
            · exact h1 f hf) (by
            subst he
            intro j f hf
            simp only [] at hf
            by_cases hj : j = i
            · rw [if_pos hj] at hf
              injection hf with hf
              exact hf ▸ hnew
            · rw [if_neg hj] at hf
              exact h2 j f hf) (fun j hj => h3 j (.inr hj))
        have hm : s'.mods = s.mods ∧ s'.lines = s.lines := by subst he; exact ⟨rfl, rfl⟩
        rw [hm.1] at b3
        rw [hm.2] at b4
        simp only []
        unfold exit
        cases hfi : (exec w b s').finder i with
        | none => exact ⟨⟨b1, b2⟩, b3, b4⟩
        | some f =>
          have hfn := b2 i f hfi
          refine ⟨⟨?_, ?_⟩, ?_, ?_⟩
          · intro g hg
            refine b1 g ?_
            clear b1
            simp only [] at hg
            generalize (exec w b s').metaPath = l at hg
            induction l with
            | nil => exact hg
            | cons x l ihl =>
              rw [removeFinder] at hg
              by_cases hx : x.id = f.id
              · rw [if_pos hx] at hg
                exact List.mem_cons_of_mem _ hg
              · rw [if_neg hx] at hg
                rcases List.mem_cons.1 hg with rfl | hg
                · exact List.mem_cons_self
                · exact List.mem_cons_of_mem _ (ihl hg)
          · intro j g hg
            simp only [] at hg
            by_cases hj : j = i
            · rw [if_pos hj] at hg; cases hg
            · rw [if_neg hj] at hg
              exact b2 j g hg
          · simp only [hfn, Option.isSome_none, Bool.false_eq_true, if_false]
            exact b3
          · simp only [hfn, Option.isSome_none, Bool.false_eq_true, if_false]
            exact b4

/-! ## Properties -/

/-- **C129 (partial).** However mocks are nested and whatever is imported, if no mock is entered while it is in use then `sys.meta_path` is afterwards what it
was, and no mock remains in use. Missing: mocks entered while in use, see `reentry_leaks`. -/
theorem meta_path_restored_partial (p : Prog) (s : St) (h : NoReentry [] p) (hs : ∀ i, s.finder i = none) :
    (exec w p s).metaPath = s.metaPath ∧ ∀ i, (exec w p s).finder i = none := by
  obtain ⟨h1, h2⟩ := exec_frame w p [] s h (fun i hi => by rw [hs i] at hi; cases hi)
  exact ⟨h1, fun i => by rw [h2]; exact hs i⟩

/-- **C129 (partial).** After a block nothing of the mock is left: no mocked module is loaded, its source is not kept, and the finders are those from before.
Missing: mocks entered while in use, and modules that were loaded before, which are gone too (`loaded_module_wins`). -/
theorem nothing_left_partial (hreg : ∀ i, Dictionary (w.reg i)) (i : Nat) (body : Prog) (s : St) (h : NoReentry [i] body) (hs : ∀ j, s.finder j = none)
    (hr : w.reg i ≠ []) (n : Name) (hn : Mocked (w.reg i) n) :
    (exec w (.withMock i body) s).mods n = none ∧ (exec w (.withMock i body) s).lines n = none ∧
    (exec w (.withMock i body) s).metaPath = s.metaPath := by
  have hmp := (exec_frame w (.withMock i body) [] s ⟨by simp, h⟩ (fun j hj => by rw [hs j] at hj; cases hj)).1
  refine ⟨?_, ?_, hmp⟩
  all_goals
    rw [exec]
    unfold enter
    rw [if_neg hr]
    simp only []
    have h2 := (exec_frame w body [i] ⟨⟨s.next, w.reg i⟩ :: s.metaPath, s.mods, s.lines,
        fun j => if j = i then some ⟨s.next, w.reg i⟩ else s.finder j, s.next + 1⟩ h (by
          intro j hj
          by_cases hji : j = i
          · exact hji ▸ List.mem_cons_self
          · simp only [hji, if_false, hs j] at hj
            cases hj)).2
    unfold exit
    rw [h2]
    simp only [if_true]
    rw [if_pos ((sourceOf_isSome ⟨s.next, w.reg i⟩ (hreg i).2 n).2 hn)]

/-- **C129.** Modules that no mock of a program stands for are not touched by it, however it enters and leaves mocks: afterwards such a module is loaded as it
was, or it was not loaded and the real one was imported. -/
theorem others_untouched (hreg : ∀ i, Dictionary (w.reg i)) (p : Prog) (s : St) (hs : ∀ i, s.finder i = none) (hm : s.metaPath = [])
    (n : Name) (hn : ∀ i, Uses p i → ¬ Mocked (w.reg i) n) :
    (exec w p s).mods n = s.mods n ∨ (s.mods n = none ∧ ∃ r, w.real n = some r ∧ (exec w p s).mods n = some (.real r)) :=
  (exec_entry w (fun i => (hreg i).2) p s n (by rw [hm]; simp) (fun i f h => by rw [hs i] at h; cases h) hn).2.1

/-- **C129 (partial).** In a block, after any imports, every name that is registered and every parent of one is imported as a mock: with the source that was
registered for it, or none, as a package iff something is registered below it, and with this source as the source that is shown for it. Missing: names that
were loaded before the block, see `loaded_module_wins`. -/
theorem registered_names_mocked_partial (hreg : ∀ i, Dictionary (w.reg i)) (i : Nat) (s s' : St) (he : enter w i s = some s')
    (hfree : ∀ n, Mocked (w.reg i) n → s.mods n = none) (before : List Name) (n : Name) (hn : Mocked (w.reg i) n) :
    ∃ src pkg, (imp w n (exec w (imports before) s')).2 = some (.mock s.next src pkg) ∧ Source (w.reg i) n src ∧
      (pkg = true ↔ Package (w.reg i) n) ∧ (imp w n (exec w (imports before) s')).1.lines n = some src := by
  unfold enter at he
  by_cases hr : w.reg i = []
  · rw [if_pos hr] at he; cases he
  · rw [if_neg hr] at he
    injection he with he
    have hin : InBlock ⟨s.next, w.reg i⟩ s' := by
      subst he
      refine ⟨⟨s.metaPath, rfl⟩, fun k src hk => .inl (hfree k ?_)⟩
      exact (sourceOf_isSome ⟨s.next, w.reg i⟩ (hreg i).2 k).1 (by rw [hk]; rfl)
    obtain ⟨src, h1, h2, h3⟩ := imp_mocked w (f := ⟨s.next, w.reg i⟩) (hreg i).2 n _ (exec_imports_inBlock w before s' hin) hn
    exact ⟨src, _, h2, sourceOf_source _ h1, isPackage_iff _ _, h3⟩

/-- **C129.** In a block, a module of which neither the name nor a parent is mocked is imported as it would be without the mock. -/
theorem other_imports_as_without (hreg : ∀ i, Dictionary (w.reg i)) (i : Nat) (s s' : St) (he : enter w i s = some s') (n : Name)
    (hn : ∀ k, k <:+ n → ¬ Mocked (w.reg i) k) : (imp w n s').2 = (imp w n s).2 ∧ (imp w n s').1.mods = (imp w n s).1.mods := by
  have key : ∀ (n : Name) (s : St) (g : Nat → Option Finder) (k : Nat),
      (imp w n { s with finder := g, next := k }).2 = (imp w n s).2 ∧
      (imp w n { s with finder := g, next := k }).1 = { (imp w n s).1 with finder := g, next := k } := by
    intro n
    have hf : ∀ (n : Name) parent (s : St) (g : Nat → Option Finder) (k : Nat),
        (findAndLoad w n parent { s with finder := g, next := k }).2 = (findAndLoad w n parent s).2 ∧
        (findAndLoad w n parent { s with finder := g, next := k }).1 = { (findAndLoad w n parent s).1 with finder := g, next := k } := by
      intro n parent s g k
      unfold findAndLoad
      cases hfd : s.metaPath.find? (fun f => (f.sourceOf n).isSome) with
      | some g => exact ⟨rfl, rfl⟩
      | none =>
        rcases parent with _ | ⟨i⟩ | ⟨_, _, _⟩
        · cases hr : w.real n <;> exact ⟨rfl, rfl⟩
        · cases hr : w.real n <;> exact ⟨rfl, rfl⟩
        · exact ⟨rfl, rfl⟩
    induction n with
    | nil => exact fun _ _ _ => ⟨rfl, rfl⟩
    | cons x p ih =>
      intro s g k
      rw [imp, imp]
      simp only []
      cases hm : s.mods (x :: p) with
      | some m => exact ⟨rfl, rfl⟩
      | none =>
        by_cases hp : p = []
        · simp only [hp, if_true]
          exact hf _ _ _ _ _
        · simp only [hp, if_false]
          obtain ⟨h1, h2⟩ := ih s g k
          rcases hi : imp w p s with ⟨t, r⟩
          rcases hj : imp w p { s with finder := g, next := k } with ⟨t', r'⟩
          rw [hi, hj] at h1 h2
          simp only [] at h1 h2
          subst h1 h2
          cases r' with
          | none => exact ⟨rfl, rfl⟩
          | some pm =>
            simp only []
            by_cases hq : pm.isPkg w = true
            · simp only [hq, if_true]
              exact hf _ _ _ _ _
            · simp only [hq]
              exact ⟨rfl, rfl⟩
  unfold enter at he
  by_cases hr : w.reg i = []
  · rw [if_pos hr] at he; cases he
  · rw [if_neg hr] at he
    injection he with he
    have hnone : ∀ k, k <:+ n → (⟨s.next, w.reg i⟩ : Finder).sourceOf k = none := by
      intro k hk
      cases hs : (⟨s.next, w.reg i⟩ : Finder).sourceOf k with
      | none => rfl
      | some src => exact absurd ((sourceOf_isSome ⟨s.next, w.reg i⟩ (hreg i).2 k).1 (by rw [hs]; rfl)) (hn k hk)
    obtain ⟨h1, h2⟩ := imp_unmocked w (f := ⟨s.next, w.reg i⟩) n s' s.metaPath (by subst he; rfl) hnone
    have hk := key n s s'.finder s'.next
    have hs' : { s' with metaPath := s.metaPath } = { s with finder := s'.finder, next := s'.next } := by subst he; rfl
    rw [hs'] at h1 h2
    refine ⟨h1.trans hk.1, ?_⟩
    rw [hk.2] at h2
    have h3 := congrArg (fun t : St => t.mods) h2
    exact h3

/-- **C129.** A mock can be used again after it was left, with the same effect: the second block starts with the mocked names free, whatever was imported
in the first. -/
theorem usable_again (hreg : ∀ i, Dictionary (w.reg i)) (i : Nat) (body : Prog) (s : St) (h : NoReentry [i] body) (hs : ∀ j, s.finder j = none)
    (hr : w.reg i ≠ []) : (∃ t, enter w i (exec w (.withMock i body) s) = some t) ∧
      ∀ n, Mocked (w.reg i) n → (exec w (.withMock i body) s).mods n = none := by
  refine ⟨?_, fun n hn => (nothing_left_partial w hreg i body s h hs hr n hn).1⟩
  unfold enter
  rw [if_neg hr]
  exact ⟨_, rfl⟩

/-- **C129.** Registering: refused while the mock is in use, refused for names that are not made of identifiers, and otherwise the name gets this source and
all others keep theirs. A mock without modules cannot be entered. -/
theorem registering (ident : String → Bool) (m : Mock) (n : Name) (src : String) :
    (m.active = true → addModule ident m n src = .error .runtimeError) ∧
    (m.active = false → (n = [] ∨ ∃ x ∈ n, ident x = false) → addModule ident m n src = .error .valueError) ∧
    (m.active = false → n ≠ [] → (∀ x ∈ n, ident x = true) → ∃ m', addModule ident m n src = .ok m' ∧ m'.active = false ∧
      get m'.sources n = some src ∧ ∀ k, k ≠ n → get m'.sources k = get m.sources k) ∧
    (∀ i s, enter w i s = none ↔ w.reg i = []) := by
  have hset : ∀ (d : List (Name × String)), get (set d n src) n = some src ∧ ∀ k, k ≠ n → get (set d n src) k = get d k := by
    intro d
    induction d with
    | nil =>
      refine ⟨by simp [set, get], fun k hk => ?_⟩
      simp [set, get, Ne.symm hk]
    | cons e d ih =>
      obtain ⟨a, b⟩ := e
      rw [set]
      by_cases ha : a = n
      · subst ha
        rw [if_pos rfl]
        refine ⟨by simp [get], fun k hk => ?_⟩
        simp [get, Ne.symm hk]
      · rw [if_neg ha]
        refine ⟨by simp [get, ha, ih.1], fun k hk => ?_⟩
        by_cases hak : a = k
        · simp [get, hak]
        · simp [get, hak, ih.2 k hk]
  refine ⟨fun h => by simp [addModule, h], fun h hn => ?_, fun h h1 h2 => ?_, fun i s => ?_⟩
  · unfold addModule
    rw [h, if_neg (by simp), if_pos]
    rcases hn with rfl | ⟨x, hx, hi⟩
    · simp
    · simp only [Bool.or_eq_true, decide_eq_true_eq, Bool.not_eq_true', List.all_eq_false]
      exact .inr ⟨x, hx, by simp [hi]⟩
  · refine ⟨{ m with sources := set m.sources n src }, ?_, h, (hset _).1, (hset _).2⟩
    unfold addModule
    rw [h, if_neg (by simp), if_neg]
    simp only [Bool.or_eq_true, decide_eq_true_eq, Bool.not_eq_true', List.all_eq_false, not_or, not_exists, not_and]
    exact ⟨h1, fun x hx => by simp [h2 x hx]⟩
  · unfold enter
    by_cases hr : w.reg i = []
    · simp [hr]
    · simp [hr]

/-! ## Deviations -/

/-- **C129, deviation.** A module that is loaded already is used instead of the mock, and leaving the block removes it from `sys.modules` although the mock
did not put it there, so that the next import makes a second copy of it. -/
theorem loaded_module_wins (hreg : ∀ i, Dictionary (w.reg i)) (i : Nat) (s s' : St) (he : enter w i s = some s') (hs : ∀ j, s.finder j = none)
    (n : Name) (hn : Mocked (w.reg i) n) (m : Mod) (hm : s.mods n = some m) :
    (imp w n s').2 = some m ∧ (exec w (.withMock i (.imp n)) s).mods n = none := by
  have hr : w.reg i ≠ [] := by
    intro hr
    unfold enter at he
    rw [if_pos hr] at he
    cases he
  refine ⟨?_, (nothing_left_partial w hreg i (.imp n) s trivial hs hr n hn).1⟩
  unfold enter at he
  rw [if_neg hr] at he
  injection he with he
  have hm' : s'.mods n = some m := by subst he; exact hm
  cases n with
  | nil => exact absurd rfl hn.1
  | cons x p =>
    rw [imp, hm']

/-- **C129, deviation.** Registering a module below a real package hides the package: in the block none of its real submodules can be imported, if neither
they nor the package are loaded. -/
theorem real_package_hidden (hreg : ∀ i, Dictionary (w.reg i)) (i : Nat) (s s' : St) (he : enter w i s = some s') (hs : s.metaPath = [])
    (hfree : ∀ n, Mocked (w.reg i) n → s.mods n = none) (x : String) (p : Name) (hp : Package (w.reg i) p) (hx : ¬ Mocked (w.reg i) (x :: p))
    (hl : s.mods (x :: p) = none) : (imp w (x :: p) s').2 = none := by
  unfold enter at he
  by_cases hr : w.reg i = []
  · rw [if_pos hr] at he; cases he
  · rw [if_neg hr] at he
    injection he with he
    have hin : InBlock ⟨s.next, w.reg i⟩ s' := by
      subst he
      refine ⟨⟨s.metaPath, rfl⟩, fun k src hk => .inl (hfree k ?_)⟩
      exact (sourceOf_isSome ⟨s.next, w.reg i⟩ (hreg i).2 k).1 (by rw [hk]; rfl)
    have hl' : s'.mods (x :: p) = none := by subst he; exact hl
    have hmp : s'.metaPath = [⟨s.next, w.reg i⟩] := by subst he; simp [hs]
    rw [imp, hl']
    simp only [hp.1, if_false]
    obtain ⟨src, -, hres, -⟩ := imp_mocked w (f := ⟨s.next, w.reg i⟩) (hreg i).2 p s' hin (package_mocked hp)
    have hfr := (imp_frame w p s').1
    rcases hi : imp w p s' with ⟨t, r⟩
    rw [hi] at hres hfr
    simp only [] at hres hfr
    subst hres
    simp only []
    have : (Mod.mock s.next src ((⟨s.next, w.reg i⟩ : Finder).isPackage p)).isPkg w = true := (isPackage_iff ⟨s.next, w.reg i⟩ p).2 hp
    rw [if_pos this]
    unfold findAndLoad
    have hnone : (⟨s.next, w.reg i⟩ : Finder).sourceOf (x :: p) = none := by
      cases hs : (⟨s.next, w.reg i⟩ : Finder).sourceOf (x :: p) with
      | none => rfl
      | some src => exact absurd ((sourceOf_isSome ⟨s.next, w.reg i⟩ (hreg i).2 _).1 (by rw [hs]; rfl)) hx
    rw [hfr, hmp, List.find?_cons_of_neg (by rw [hnone]; simp)]
    rfl

/-- A world with no real modules, and two mocks of `a`: the first also has `a.b`. -/
def two : World := ⟨fun _ => none, fun _ => false, fun i => if i = 0 then [(["b", "a"], "x"), (["a"], "outer")] else [(["a"], "inner")]⟩

/-- A fresh interpreter. -/
def fresh : St := ⟨[], fun _ => none, fun _ => none, fun _ => none, 0⟩

/-- **C129, deviation.** A mock that is entered while it is in use stays on `sys.meta_path` forever, and its modules can be imported after the outermost
block. -/
theorem reentry_leaks : ¬ NoReentry [] (.withMock 0 (.withMock 0 .skip)) ∧ (exec two (.withMock 0 (.withMock 0 .skip)) fresh).metaPath ≠ [] ∧
    (∀ i, (exec two (.withMock 0 (.withMock 0 .skip)) fresh).finder i = none) ∧
    (imp two ["a"] (exec two (.withMock 0 (.withMock 0 .skip)) fresh)).2 = some (.mock 0 "outer" true) := by
  refine ⟨by simp [NoReentry], by decide +kernel, fun i => ?_, by decide +kernel⟩
  by_cases hi : i = 0
  · subst hi; decide +kernel
  · simp [exec, enter, exit, two, fresh, hi]

/-- **C129, deviation.** Leaving an inner mock also unloads modules of the outer one with the same name: importing the name again in the outer block gives
another module than before. Here the module that was imported in the inner block is the outer one, and it is gone afterwards. -/
theorem inner_exit_unloads_outer : ∃ s', enter two 0 fresh = some s' ∧
    (imp two ["a"] s').2 = some (.mock 0 "outer" true) ∧
    (exec two (.seq (.imp ["a"]) (.withMock 1 (.imp ["a"]))) s').mods ["a"] = none ∧
    ∃ s'', enter two 1 (exec two (.imp ["a"]) s') = some s'' ∧ (imp two ["a"] s'').2 = some (.mock 0 "outer" true) :=
  ⟨_, rfl, by decide +kernel, by decide +kernel, _, rfl, by decide +kernel⟩

/-! ## Concrete cases -/

/-- The example of package_mock.py:49-56, with a real package `real` with a module `real.x`. -/
def sample : World :=
  ⟨fun n => if n = ["real"] then some 1 else if n = ["x", "real"] then some 2 else none, fun i => i == 1,
    fun i => if i = 0 then [(["a", "my_pkg"], "def foo(): return 1"), (["b", "my_pkg"], "bar = 2")] else []⟩

example : (exec sample (.withMock 0 (.seq (.imp ["a", "my_pkg"]) (.imp ["x", "real"]))) fresh).mods ["x", "real"] = some (.real 2) := by decide +kernel
example : (exec sample (.withMock 0 (.seq (.imp ["a", "my_pkg"]) (.imp ["x", "real"]))) fresh).mods ["my_pkg"] = none := by decide +kernel
example : ∃ s', enter sample 0 fresh = some s' ∧ (imp sample ["a", "my_pkg"] s').2 = some (.mock 0 "def foo(): return 1" false) ∧
    (imp sample ["a", "my_pkg"] s').1.mods ["my_pkg"] = some (.mock 0 "" true) ∧ (imp sample ["c", "my_pkg"] s').2 = none :=
  ⟨_, rfl, by decide +kernel, by decide +kernel, by decide +kernel⟩
/-- The hypotheses of the properties hold for it. -/
example : (∀ i, Dictionary (sample.reg i)) ∧ Mocked (sample.reg 0) ["my_pkg"] ∧ Package (sample.reg 0) ["my_pkg"] ∧
    NoReentry [] (.withMock 0 (.imp ["a", "my_pkg"])) := by
  refine ⟨fun i => ?_, ⟨by simp, _, List.mem_cons_self, ["a"], rfl⟩, ⟨by simp, _, List.mem_cons_self, ⟨["a"], rfl⟩, by decide⟩, by simp [NoReentry]⟩
  by_cases hi : i = 0
  · subst hi; unfold Dictionary sample; decide
  · simp [Dictionary, sample, hi]
/-- Without a package nothing is found in a real module. -/
example : (imp sample ["y", "x", "real"] fresh).2 = none := by decide +kernel

end FF.PkgMock
