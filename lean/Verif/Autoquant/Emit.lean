import Mathlib.Data.List.Basic
import Mathlib.Data.List.Nodup
import Mathlib.Data.Nat.Notation

/-!
# Writing and importing generated code, and what is generated the next time

Models `emit_code_of_module`, `_find_known_quantized_modules` and `_find_unquantized_submodules` in `/repo/src/fastforward/_autoquant/autoquant.py`, `FileWriter` in
`/repo/src/fastforward/_autoquant/pybuilder/writer.py`, `import_code` in `/repo/src/fastforward/_autoquant/pybuilder/importing.py` and `autoquantize` in `/repo/src/fastforward/autoquant.py`.
-/

namespace FF.Emit

/-! ### Model: writing -/

/-- Where a call of `FileWriter.write` is. -/
inductive Pc where
  | start | checked | truncated | done | refused
  deriving DecidableEq, Repr

/-- A call of `FileWriter.write`: the file, whether to overwrite it, and the code. -/
structure Proc where
  target : String
  force : Bool
  code : String
  pc : Pc
  deriving DecidableEq, Repr

/-- The contents of files, and any number of calls, in one or many processes. -/
structure Sys where
  fs : String → Option String
  procs : ℕ → Proc

def setFs (fs : String → Option String) (f : String) (c : String) : String → Option String := fun g => if g = f then some c else fs g

def setProc (ps : ℕ → Proc) (i : ℕ) (p : Proc) : ℕ → Proc := fun j => if j = i then p else ps j

/-- One step of call `i`: the check (`writer.py:69-71`), opening the file, which empties it, and writing (`write_text`, 73). The directory is made before the check (68), which has no effect if the
file exists. -/
def step (s : Sys) (i : ℕ) : Sys :=
  let p := s.procs i
  match p.pc with
  | .start => if (s.fs p.target).isSome && !p.force then { s with procs := setProc s.procs i { p with pc := .refused } } else { s with procs := setProc s.procs i { p with pc := .checked } }
  | .checked => { fs := setFs s.fs p.target "", procs := setProc s.procs i { p with pc := .truncated } }
  | .truncated => { fs := setFs s.fs p.target p.code, procs := setProc s.procs i { p with pc := .done } }
  | .done => s
  | .refused => s

/-- A schedule: whose turn it is. A crash ends it early. -/
def run : List ℕ → Sys → Sys
  | [], s => s
  | i :: is, s => run is (step s i)

/-! ### Model: paths and names -/

/-- The parts of a name before and after its last dot. -/
def splitLast : List Char → Option (List Char × List Char)
  | [] => none
  | c :: cs => match splitLast cs with
    | some (a, b) => some (c :: a, b)
    | none => if c = '.' then some ([], cs) else none

/-- `suffix` and `with_suffix("").name` of `pathlib`. -/
def suffix (n : List Char) : List Char := match splitLast n with
  | some (a, b) => if a ≠ [] ∧ b ≠ [] then '.' :: b else []
  | none => []

def stem (n : List Char) : List Char := match splitLast n with
  | some (a, b) => if a ≠ [] ∧ b ≠ [] then a else n
  | none => n

def py : List Char := ['.', 'p', 'y']

/-- `str.removesuffix(".py")`. -/
def removePy (n : List Char) : List Char := if py.isSuffixOf n then n.take (n.length - 3) else n

def init : List Char := "__init__.py".toList

/-- `FileWriter.__init__` (49-64): the file, for an output path with directory `dir` and last part `last`. -/
def outputFile (dir : List (List Char)) (last : List Char) : List (List Char) := if suffix last = py then dir ++ [last] else dir ++ [last, init]

/-- The name of the module (57-64 and `BasicCodeWriter.__init__`, 24-25). -/
def moduleName (last : List Char) : List Char := removePy (if suffix last = py then stem last else last)

/-! ### Model: importing and generating again -/

/-- A class that exists: its direct bases. -/
structure Cls where
  name : String
  bases : List String
  deriving DecidableEq, Repr

/-- Which classes are `QuantizedModule` or below, and which are modules. -/
structure Kinds where
  isQ : String → Bool
  isNN : String → Bool

/-- `_find_known_quantized_modules` (477-485): the bases of quantized classes that are not quantized; `none` is the failing assertion. -/
def knownOf (k : Kinds) : List String → Option (List String)
  | [] => some []
  | b :: bs => if k.isQ b then knownOf k bs else if k.isNN b then (knownOf k bs).map (b :: ·) else none

def known (k : Kinds) : List Cls → Option (List String)
  | [] => some []
  | c :: cs => if k.isQ c.name then match knownOf k c.bases, known k cs with
      | some a, some b => some (a ++ b)
      | _, _ => none
    else known k cs

/-- `_find_unquantized_submodules` (457-474): the types of the modules, each once, without those that are known. -/
def discover (seen : List String) : List String → List String
  | [] => []
  | t :: ts => if t ∈ seen then discover seen ts else t :: discover (t :: seen) ts

/-- The module types that the generated code has a quantized class for. -/
def generate (k : Kinds) (reg : List Cls) (types : List String) : Option (List String) := (known k reg).map (discover · types)

/-- A call of `autoquantize` (`fastforward/autoquant.py:122-148`) on a model with modules of these types. With `auto_import` the code is executed, which makes the classes. -/
def autoquantize (k : Kinds) (reg : List Cls) (types : List String) (auto : Bool) : Option (List String × List Cls) :=
  (generate k reg types).map fun g => (g, if auto then reg ++ g.map (fun t => ⟨"Quantized" ++ t, ["QuantizedModule", t]⟩) else reg)

/-- `import_code` (`importing.py:13-24`): the modules by name afterwards; if executing the code fails they stay. -/
def importCode (mods : String → Option String) (name code : String) (fails : Bool) : String → Option String :=
  if fails then mods else fun n => if n = name then some code else mods n

/-! ### Specification -/

/-- Python finds a module of this name, in a directory where it looks, in this file. -/
def FoundAs (dir : List (List Char)) (name : List Char) (file : List (List Char)) : Prop :=
  '.' ∉ name ∧ (file = dir ++ [name ++ ".py".toList] ∨ file = dir ++ [name, "__init__.py".toList])

/-- There is a quantized class made for this one: one with it as a direct base. -/
def HasQuantized (k : Kinds) (reg : List Cls) (t : String) : Prop := ∃ c ∈ reg, k.isQ c.name = true ∧ t ∈ c.bases

/-! ### Lemmas -/

theorem step_cases (s : Sys) (i : ℕ) :
    ((s.procs i).pc = .start ∧ ((s.fs (s.procs i).target).isSome && !(s.procs i).force) = true ∧ step s i = { s with procs := setProc s.procs i { s.procs i with pc := .refused } }) ∨
    ((s.procs i).pc = .start ∧ ((s.fs (s.procs i).target).isSome && !(s.procs i).force) = false ∧ step s i = { s with procs := setProc s.procs i { s.procs i with pc := .checked } }) ∨
    ((s.procs i).pc = .checked ∧ step s i = { fs := setFs s.fs (s.procs i).target "", procs := setProc s.procs i { s.procs i with pc := .truncated } }) ∨
    ((s.procs i).pc = .truncated ∧ step s i = { fs := setFs s.fs (s.procs i).target (s.procs i).code, procs := setProc s.procs i { s.procs i with pc := .done } }) ∨
    (((s.procs i).pc = .done ∨ (s.procs i).pc = .refused) ∧ step s i = s) := by
  cases h : (s.procs i).pc with
  | start =>
    cases hc : ((s.fs (s.procs i).target).isSome && !(s.procs i).force) with
    | true => left; exact ⟨rfl, rfl, by simp only [step, h, hc, if_true]⟩
    | false => right; left; exact ⟨rfl, rfl, by simp only [step, h, hc, Bool.false_eq_true, if_false]⟩
  | checked => right; right; left; exact ⟨rfl, by simp only [step, h]⟩
  | truncated => right; right; right; left; exact ⟨rfl, by simp only [step, h]⟩
  | done => right; right; right; right; exact ⟨.inl rfl, by simp only [step, h]⟩
  | refused => right; right; right; right; exact ⟨.inr rfl, by simp only [step, h]⟩

theorem setProc_same (ps : ℕ → Proc) (i : ℕ) (p : Proc) : setProc ps i p i = p := if_pos rfl

theorem setProc_other (ps : ℕ → Proc) (i j : ℕ) (p : Proc) (h : j ≠ i) : setProc ps i p j = ps j := if_neg h

theorem setFs_other (fs : String → Option String) (f g c : String) (h : g ≠ f) : setFs fs f c g = fs g := if_neg h

theorem step_other (s : Sys) (i j : ℕ) (h : j ≠ i) : (step s i).procs j = s.procs j := by
  rcases step_cases s i with ⟨_, _, e⟩ | ⟨_, _, e⟩ | ⟨_, e⟩ | ⟨_, e⟩ | ⟨_, e⟩ <;> rw [e] <;> first | rfl | exact setProc_other _ _ _ _ h

theorem step_target (s : Sys) (i j : ℕ) : ((step s i).procs j).target = (s.procs j).target ∧ ((step s i).procs j).force = (s.procs j).force ∧ ((step s i).procs j).code = (s.procs j).code := by
  by_cases h : j = i
  · subst h
    rcases step_cases s j with ⟨_, _, e⟩ | ⟨_, _, e⟩ | ⟨_, e⟩ | ⟨_, e⟩ | ⟨_, e⟩ <;> rw [e] <;> simp [setProc_same]
  · rw [step_other s i j h]; exact ⟨rfl, rfl, rfl⟩

theorem step_fs_other (s : Sys) (i : ℕ) (f : String) (h : (s.procs i).target ≠ f) : (step s i).fs f = s.fs f := by
  rcases step_cases s i with ⟨_, _, e⟩ | ⟨_, _, e⟩ | ⟨_, e⟩ | ⟨_, e⟩ | ⟨_, e⟩ <;> rw [e] <;> first | rfl | exact setFs_other _ _ _ _ (Ne.symm h)

theorem run_target (is : List ℕ) : ∀ (s : Sys) (j : ℕ), ((run is s).procs j).target = (s.procs j).target ∧ ((run is s).procs j).force = (s.procs j).force ∧ ((run is s).procs j).code = (s.procs j).code := by
  induction is with
  | nil => intro s j; exact ⟨rfl, rfl, rfl⟩
  | cons i is ih =>
    intro s j
    obtain ⟨a, b, c⟩ := ih (step s i) j
    obtain ⟨a', b', c'⟩ := step_target s i j
    exact ⟨a.trans a', b.trans b', c.trans c'⟩

theorem splitLast_none : ∀ n : List Char, '.' ∉ n → splitLast n = none
  | [], _ => rfl
  | c :: cs, h => by
    simp only [List.mem_cons, not_or] at h
    rw [splitLast, splitLast_none cs h.2]
    simp [Ne.symm h.1]

theorem splitLast_append : ∀ (n b : List Char), '.' ∉ b → splitLast (n ++ '.' :: b) = some (n, b)
  | [], b, h => by rw [List.nil_append, splitLast, splitLast_none b h]; simp
  | c :: cs, b, h => by rw [List.cons_append, splitLast, splitLast_append cs b h]

theorem discover_mem : ∀ (types seen : List String) (x : String), x ∈ discover seen types ↔ x ∈ types ∧ x ∉ seen
  | [], seen, x => by simp [discover]
  | t :: ts, seen, x => by
    rw [discover]
    by_cases h : t ∈ seen
    · rw [if_pos h, discover_mem ts seen x, List.mem_cons]
      constructor
      · rintro ⟨h1, h2⟩; exact ⟨.inr h1, h2⟩
      · rintro ⟨h1 | h1, h2⟩
        · rw [h1] at h2; exact absurd h h2
        · exact ⟨h1, h2⟩
    · rw [if_neg h, List.mem_cons, discover_mem ts _ x, List.mem_cons, List.mem_cons]
      by_cases hx : x = t
      · subst hx; simp [h]
      · simp [hx]

theorem discover_nodup : ∀ (types seen : List String), (discover seen types).Nodup
  | [], _ => by simp [discover]
  | t :: ts, seen => by
    rw [discover]
    by_cases h : t ∈ seen
    · rw [if_pos h]; exact discover_nodup ts seen
    · rw [if_neg h, List.nodup_cons]
      refine ⟨?_, discover_nodup ts _⟩
      rw [discover_mem]
      simp

theorem knownOf_mem (k : Kinds) : ∀ (bs l : List String), knownOf k bs = some l → ∀ x, x ∈ l ↔ x ∈ bs ∧ k.isQ x = false
  | [], l, h, x => by cases h; simp
  | b :: bs, l, h, x => by
    rw [knownOf] at h
    by_cases hq : k.isQ b = true
    · rw [if_pos hq] at h
      rw [knownOf_mem k bs l h x, List.mem_cons]
      constructor
      · rintro ⟨h1, h2⟩; exact ⟨.inr h1, h2⟩
      · rintro ⟨h1 | h1, h2⟩
        · rw [h1, hq] at h2; cases h2
        · exact ⟨h1, h2⟩
    · rw [if_neg hq] at h
      by_cases hn : k.isNN b = true
      · rw [if_pos hn] at h
        cases hr : knownOf k bs with
        | none => rw [hr] at h; cases h
        | some r =>
          rw [hr] at h; cases h
          rw [List.mem_cons, knownOf_mem k bs r hr x, List.mem_cons]
          have hq' : k.isQ b = false := by simpa using hq
          constructor
          · rintro (rfl | ⟨h1, h2⟩)
            · exact ⟨.inl rfl, hq'⟩
            · exact ⟨.inr h1, h2⟩
          · rintro ⟨rfl | h1, h2⟩
            · exact .inl rfl
            · exact .inr ⟨h1, h2⟩
      · rw [if_neg hn] at h; cases h

theorem known_mem (k : Kinds) : ∀ (reg : List Cls) (l : List String), known k reg = some l → ∀ x, x ∈ l ↔ k.isQ x = false ∧ HasQuantized k reg x
  | [], l, h, x => by cases h; simp [HasQuantized]
  | c :: cs, l, h, x => by
    rw [known] at h
    by_cases hq : k.isQ c.name = true
    · rw [if_pos hq] at h
      cases h1 : knownOf k c.bases with
      | none => rw [h1] at h; cases h
      | some a =>
        cases h2 : known k cs with
        | none => rw [h1, h2] at h; cases h
        | some b =>
          rw [h1, h2] at h; cases h
          rw [List.mem_append, knownOf_mem k _ a h1 x, known_mem k cs b h2 x]
          constructor
          · rintro (⟨h3, h4⟩ | ⟨h3, d, hd, h4⟩)
            · exact ⟨h4, c, List.mem_cons_self .., hq, h3⟩
            · exact ⟨h3, d, List.mem_cons_of_mem _ hd, h4⟩
          · rintro ⟨h3, d, hd, h4, h5⟩
            rcases List.mem_cons.1 hd with rfl | hd
            · exact .inl ⟨h5, h3⟩
            · exact .inr ⟨h3, d, hd, h4, h5⟩
    · rw [if_neg hq] at h
      rw [known_mem k cs l h x]
      constructor
      · rintro ⟨h3, d, hd, h4⟩; exact ⟨h3, d, List.mem_cons_of_mem _ hd, h4⟩
      · rintro ⟨h3, d, hd, h4, h5⟩
        rcases List.mem_cons.1 hd with rfl | hd
        · exact absurd h4 hq
        · exact ⟨h3, d, hd, h4, h5⟩

/-! ### Properties: writing -/

/-- **C123.** A file that exists is not changed unless overwriting is asked for: under all schedules of any number of calls, and wherever they crash. -/
theorem existing_kept (is : List ℕ) (s : Sys) (f c : String) (hf : s.fs f = some c) (hs : ∀ i, (s.procs i).pc = .start) (hn : ∀ i, (s.procs i).target = f → (s.procs i).force = false) :
    (run is s).fs f = some c := by
  suffices h : ∀ (is : List ℕ) (s : Sys), s.fs f = some c → (∀ i, (s.procs i).target = f → (s.procs i).force = false ∧ ((s.procs i).pc = .start ∨ (s.procs i).pc = .refused)) → (run is s).fs f = some c from
    h is s hf fun i ht => ⟨hn i ht, .inl (hs i)⟩
  intro is
  induction is with
  | nil => intro s h _; exact h
  | cons i is ih =>
    intro s h hi
    by_cases ht : (s.procs i).target = f
    · obtain ⟨h1, h2⟩ := hi i ht
      have hst : (step s i).fs = s.fs ∧ ((step s i).procs i).pc = .refused := by
        rcases step_cases s i with ⟨_, _, e⟩ | ⟨_, e0, _⟩ | ⟨e, _⟩ | ⟨e, _⟩ | ⟨e0, e⟩
        · rw [e]; exact ⟨rfl, by simp [setProc_same]⟩
        · rw [ht, h, h1] at e0; cases e0
        · rcases h2 with h2 | h2 <;> rw [h2] at e <;> cases e
        · rcases h2 with h2 | h2 <;> rw [h2] at e <;> cases e
        · rw [e]
          refine ⟨rfl, ?_⟩
          rcases h2 with h2 | h2
          · rw [h2] at e0; rcases e0 with e0 | e0 <;> cases e0
          · exact h2
      obtain ⟨hfs, hpc⟩ := hst
      refine ih (step s i) (by rw [hfs]; exact h) ?_
      intro j hj
      obtain ⟨e1, e2, _⟩ := step_target s i j
      rw [e1] at hj
      rw [e2]
      refine ⟨(hi j hj).1, ?_⟩
      by_cases hji : j = i
      · subst hji; exact .inr hpc
      · rw [step_other s i j hji]; exact (hi j hj).2
    · refine ih (step s i) (by rw [step_fs_other s i f ht]; exact h) ?_
      intro j hj
      obtain ⟨e1, e2, _⟩ := step_target s i j
      rw [e1] at hj
      rw [e2]
      refine ⟨(hi j hj).1, ?_⟩
      have hji : j ≠ i := fun e => ht (e ▸ hj)
      rw [step_other s i j hji]; exact (hi j hj).2

/-- **C123.** No other file is changed. -/
theorem others_kept (is : List ℕ) (f : String) : ∀ (s : Sys), (∀ i, (s.procs i).target ≠ f) → (run is s).fs f = s.fs f := by
  induction is with
  | nil => intro s _; rfl
  | cons i is ih =>
    intro s h
    rw [run, ih (step s i) (fun j => by rw [(step_target s i j).1]; exact h j), step_fs_other s i f (h i)]

/-- **C123 (partial).** If only one call writes to a file, the file has its code when the call has ended, and is as before if the call was refused, which happens only if the file existed and overwriting
was not asked for. Missing: several calls for one file, see `both_written`. -/
theorem written_partial (is : List ℕ) (i : ℕ) (f : String) : ∀ (s : Sys), (s.procs i).pc = .start → (s.procs i).target = f → (∀ j, j ≠ i → (s.procs j).target ≠ f) →
    (((run is s).procs i).pc = .done → (run is s).fs f = some (s.procs i).code) ∧
    (((run is s).procs i).pc = .refused → (run is s).fs f = s.fs f ∧ (s.fs f).isSome = true ∧ (s.procs i).force = false) := by
  intro s h0 h1 h2
  suffices h : ∀ (is : List ℕ) (t : Sys), (∀ j, (t.procs j).target = (s.procs j).target ∧ (t.procs j).force = (s.procs j).force ∧ (t.procs j).code = (s.procs j).code) →
      (match (t.procs i).pc with
        | .start => t.fs f = s.fs f
        | .checked => True
        | .truncated => True
        | .done => t.fs f = some (s.procs i).code
        | .refused => t.fs f = s.fs f ∧ (s.fs f).isSome = true ∧ (s.procs i).force = false) →
      (match ((run is t).procs i).pc with
        | .start => (run is t).fs f = s.fs f
        | .checked => True
        | .truncated => True
        | .done => (run is t).fs f = some (s.procs i).code
        | .refused => (run is t).fs f = s.fs f ∧ (s.fs f).isSome = true ∧ (s.procs i).force = false) by
    have := h is s (fun _ => ⟨rfl, rfl, rfl⟩) (by rw [h0])
    refine ⟨fun hd => ?_, fun hr => ?_⟩
    · rw [hd] at this; exact this
    · rw [hr] at this; exact this
  intro is
  induction is with
  | nil => intro t _ h; exact h
  | cons j is ih =>
    intro t ht hI
    refine ih (step t j) (fun l => ?_) ?_
    · obtain ⟨a, b, c⟩ := step_target t j l
      obtain ⟨a', b', c'⟩ := ht l
      exact ⟨a.trans a', b.trans b', c.trans c'⟩
    · by_cases hj : j = i
      · subst hj
        obtain ⟨e1, e2, e3⟩ := ht j
        rw [h1] at e1
        rcases step_cases t j with ⟨hp, hc, e⟩ | ⟨hp, hc, e⟩ | ⟨hp, e⟩ | ⟨hp, e⟩ | ⟨hp, e⟩
        · rw [e]
          rw [hp] at hI
          simp only [setProc_same]
          simp only [e1, e2, Bool.and_eq_true, Bool.not_eq_true'] at hc
          have hI' : t.fs f = s.fs f := hI
          rw [hI'] at hc
          exact ⟨hI', hc.1, hc.2⟩
        · rw [e]; simp only [setProc_same]
        · rw [e]; simp only [setProc_same]
        · rw [e]; simp only [setProc_same, e1, e3]; exact if_pos rfl
        · rw [e]; exact hI
      · have hne : (t.procs j).target ≠ f := by rw [(ht j).1]; exact h2 j hj
        rw [step_other t j i (fun e => hj e.symm), step_fs_other t j f hne]
        exact hI

/-! ### Properties: where it is written -/

/-- **C123 (partial).** Python finds the module under the name that is returned: with an output path `….py`, or a path without a dot in its last part. Missing: other dots, see `dotted_name`. -/
theorem module_found_partial (dir : List (List Char)) (n : List Char) (hd : '.' ∉ n) (hn : n ≠ []) :
    (moduleName (n ++ ".py".toList) = n ∧ FoundAs dir n (outputFile dir (n ++ ".py".toList))) ∧ (moduleName n = n ∧ FoundAs dir n (outputFile dir n)) := by
  have hs : splitLast (n ++ ".py".toList) = some (n, ['p', 'y']) := splitLast_append n ['p', 'y'] (by decide)
  have hs2 : splitLast n = none := splitLast_none n hd
  have hsu : suffix (n ++ ".py".toList) = py := by simp only [suffix, hs]; rw [if_pos ⟨hn, by decide⟩]; rfl
  have hsu2 : suffix n ≠ py := by simp only [suffix, hs2]; decide
  have hrm : removePy n = n := by
    unfold removePy
    rw [if_neg]
    intro h
    have := List.isSuffixOf_iff_suffix.1 h
    exact hd (this.subset (by decide))
  refine ⟨⟨?_, hd, ?_⟩, ⟨?_, hd, ?_⟩⟩
  · unfold moduleName
    rw [if_pos hsu]
    have : stem (n ++ ".py".toList) = n := by simp only [stem, hs]; rw [if_pos ⟨hn, by decide⟩]
    rw [this, hrm]
  · left; unfold outputFile; rw [if_pos hsu]
  · unfold moduleName; rw [if_neg hsu2, hrm]
  · right; unfold outputFile; rw [if_neg hsu2]; rfl

/-- **C123.** Importing makes the module available under its name and keeps all others; nothing is changed if executing the code fails. -/
theorem import_spec (mods : String → Option String) (name code : String) :
    importCode mods name code false name = some code ∧ (∀ n, n ≠ name → importCode mods name code false n = mods n) ∧ importCode mods name code true = mods := by
  refine ⟨by simp [importCode], fun n h => by simp [importCode, h], rfl⟩

/-! ### Properties: what is generated -/

/-- **C123 (partial).** The code has a class for exactly the module types of the model that no quantized class was made for, each once. Missing: types that are quantized themselves, see
`quantized_again`; classes with bases that are not modules, see `mixin_fails`. -/
theorem generated_exactly_partial (k : Kinds) (reg : List Cls) (types g : List String) (h : generate k reg types = some g) :
    g.Nodup ∧ ∀ t, k.isQ t = false → (t ∈ g ↔ t ∈ types ∧ ¬ HasQuantized k reg t) := by
  unfold generate at h
  cases hk : known k reg with
  | none => rw [hk] at h; cases h
  | some l =>
    rw [hk] at h
    have hg : discover l types = g := Option.some.inj h
    subst hg
    refine ⟨discover_nodup types l, fun t ht => ?_⟩
    rw [discover_mem, known_mem k reg l hk t]
    simp [ht]

/-- **C123.** Without importing, generating code has no effect on what is generated later: after any number of calls, for any models, the code for a model is the same. -/
theorem repeatable (k : Kinds) (reg reg' : List Cls) (models : List (List String)) (types : List String)
    (h : models.foldl (fun r m => match r with
      | some r => (autoquantize k r m false).map Prod.snd
      | none => none) (some reg) = some reg') : generate k reg' types = generate k reg types := by
  suffices hs : ∀ (models : List (List String)) (reg : List Cls), models.foldl (fun r m => match r with
      | some r => (autoquantize k r m false).map Prod.snd
      | none => none) (some reg) = some reg' → reg' = reg by rw [hs models reg h]
  intro models
  induction models with
  | nil => intro reg h; exact (Option.some.inj h).symm
  | cons m ms ih =>
    intro reg h
    rw [List.foldl_cons] at h
    cases hg : generate k reg m with
    | none =>
      simp only [autoquantize, hg, Option.map_none] at h
      exfalso
      have : ∀ l : List (List String), l.foldl (fun r m => match r with
        | some r => ((generate k r m).map fun g => (g, if false = true then r ++ g.map (fun t => (⟨"Quantized" ++ t, ["QuantizedModule", t]⟩ : Cls)) else r)).map Prod.snd
        | none => none) none = (none : Option (List Cls)) := by
        intro l
        induction l with
        | nil => rfl
        | cons _ _ ih => rw [List.foldl_cons]; exact ih
      rw [this] at h
      cases h
    | some g =>
      apply ih reg
      have : (autoquantize k reg m false).map Prod.snd = some reg := by simp [autoquantize, hg]
      simp only [this] at h
      exact h

/-! ### Deviations -/

/-- **C123, deviation.** The check and the write are separate. Two calls for one file that does not exist both end without an error, and only the second one's code is there. -/
theorem both_written (s : Sys) (f a b : String) (hf : s.fs f = none) (h0 : s.procs 0 = ⟨f, false, a, .start⟩) (h1 : s.procs 1 = ⟨f, false, b, .start⟩) :
    ((run [0, 1, 0, 0, 1, 1] s).procs 0).pc = .done ∧ ((run [0, 1, 0, 0, 1, 1] s).procs 1).pc = .done ∧ (run [0, 1, 0, 0, 1, 1] s).fs f = some b := by
  simp [run, step, h0, h1, hf, setProc, setFs]

/-- **C123, deviation.** A crash while an existing file is replaced leaves neither the old nor the new code. -/
theorem crash_loses_both (s : Sys) (f a old : String) (hf : s.fs f = some old) (h0 : s.procs 0 = ⟨f, true, a, .start⟩) : (run [0, 0] s).fs f = some "" := by
  simp [run, step, h0, hf, setProc, setFs]

/-- **C123, deviation.** With another dot the module has a name that Python does not find: `model.v2.py`. -/
theorem dotted_name (dir : List (List Char)) : outputFile dir "model.v2.py".toList = dir ++ ["model.v2.py".toList] ∧ moduleName "model.v2.py".toList = "model.v2".toList ∧
    ∀ file, ¬ FoundAs dir (moduleName "model.v2.py".toList) file := by
  have h1 : suffix "model.v2.py".toList = py := by decide
  have h2 : moduleName "model.v2.py".toList = "model.v2".toList := by decide
  refine ⟨by unfold outputFile; rw [if_pos h1], h2, fun file h => ?_⟩
  rw [h2] at h
  exact h.1 (by decide)

/-- **C123, deviation.** A suffix that is given twice is taken off twice: the code is written to `model.py.py`, and returned as module `model`, which is not found there. -/
theorem doubled_suffix (dir : List (List Char)) : outputFile dir "model.py.py".toList = dir ++ ["model.py.py".toList] ∧ moduleName "model.py.py".toList = "model".toList ∧
    ¬ FoundAs dir (moduleName "model.py.py".toList) (outputFile dir "model.py.py".toList) := by
  have h1 : suffix "model.py.py".toList = py := by decide
  have h2 : moduleName "model.py.py".toList = "model".toList := by decide
  have h3 : outputFile dir "model.py.py".toList = dir ++ ["model.py.py".toList] := by unfold outputFile; rw [if_pos h1]
  refine ⟨h3, h2, fun h => ?_⟩
  rw [h2, h3] at h
  rcases h.2 with e | e
  · have := List.append_cancel_left e
    revert this
    decide
  · have := congrArg List.length (List.append_cancel_left e)
    cases this

/-- **C123, deviation.** A module that is loaded already is replaced, whatever it is: with output path `json.py` the module `json`. -/
theorem loaded_replaced (mods : String → Option String) (code old : String) (_ : mods "json" = some old) : importCode mods "json" code false "json" = some code := by
  simp [importCode]

/-- **C123, deviation.** After importing, the same call generates no code: the classes are taken to be quantized already, by the classes that were just generated. With `force_overwrite` the file is
replaced by one without them. -/
theorem second_time_empty (k : Kinds) (reg reg' : List Cls) (types g g' : List String) (hQ : ∀ t, k.isQ ("Quantized" ++ t) = true) (hn : ∀ t ∈ types, k.isQ t = false)
    (h1 : autoquantize k reg types true = some (g, reg')) (h2 : generate k reg' types = some g') : g' = [] := by
  unfold autoquantize at h1
  cases hg : generate k reg types with
  | none => rw [hg] at h1; cases h1
  | some g0 =>
    rw [hg] at h1
    simp only [Option.map_some, if_true, Option.some.injEq, Prod.mk.injEq] at h1
    obtain ⟨rfl, rfl⟩ := h1
    obtain ⟨_, m1⟩ := generated_exactly_partial k reg types g0 hg
    obtain ⟨_, m2⟩ := generated_exactly_partial k _ types g' h2
    rw [List.eq_nil_iff_forall_not_mem]
    intro t ht
    have hty : t ∈ types := by
      unfold generate at h2
      cases hk : known k (reg ++ g0.map (fun t => (⟨"Quantized" ++ t, ["QuantizedModule", t]⟩ : Cls))) with
      | none => rw [hk] at h2; cases h2
      | some l =>
        rw [hk] at h2
        have hd : discover l types = g' := Option.some.inj h2
        rw [← hd] at ht
        exact ((discover_mem types l t).1 ht).1
    obtain ⟨_, hnot⟩ := (m2 t (hn t hty)).1 ht
    apply hnot
    by_cases hg0 : t ∈ g0
    · exact ⟨⟨"Quantized" ++ t, ["QuantizedModule", t]⟩, List.mem_append_right _ (List.mem_map.2 ⟨t, hg0, rfl⟩), hQ t, by simp⟩
    · rw [m1 t (hn t hty)] at hg0
      have : HasQuantized k reg t := by
        by_contra hc
        exact hg0 ⟨hty, hc⟩
      obtain ⟨c, hc, h⟩ := this
      exact ⟨c, List.mem_append_left _ hc, h⟩

/-- **C123, deviation.** Modules that are quantized already are converted again: a model with a `QuantizedLinear` gets a `QuantizedQuantizedLinear`. -/
theorem quantized_again (k : Kinds) (reg : List Cls) (types g : List String) (h : generate k reg types = some g) (t : String) (hq : k.isQ t = true) (ht : t ∈ types) : t ∈ g := by
  unfold generate at h
  cases hk : known k reg with
  | none => rw [hk] at h; cases h
  | some l =>
    rw [hk] at h
    have hg : discover l types = g := Option.some.inj h
    rw [← hg, discover_mem]
    refine ⟨ht, fun hl => ?_⟩
    have := ((known_mem k reg l hk t).1 hl).1
    rw [hq] at this; cases this

/-- **C123, deviation.** If there is a quantized class anywhere with a base that is not a module, such as a mixin, no model can be converted. -/
theorem mixin_fails (k : Kinds) (c : Cls) (b : String) (hc : k.isQ c.name = true) (hb : b ∈ c.bases) (h1 : k.isQ b = false) (h2 : k.isNN b = false) :
    ∀ (reg : List Cls) (types : List String), c ∈ reg → generate k reg types = none := by
  have hbs : ∀ bs : List String, b ∈ bs → knownOf k bs = none := by
    intro bs
    induction bs with
    | nil => intro h; cases h
    | cons d ds ih =>
      intro h
      rw [knownOf]
      by_cases hd : d = b
      · rw [hd, h1, h2]; rfl
      · have hm : b ∈ ds := by rcases List.mem_cons.1 h with h | h; exacts [absurd h.symm hd, h]
        rw [ih hm]; split <;> [rfl; (split <;> rfl)]
  have hk : ∀ reg : List Cls, c ∈ reg → known k reg = none := by
    intro reg
    induction reg with
    | nil => intro h; cases h
    | cons d ds ih =>
      intro h
      rw [known]
      rcases List.mem_cons.1 h with rfl | h
      · rw [if_pos hc, hbs _ hb]
      · rw [ih h]
        split
        · cases knownOf k d.bases <;> rfl
        · rfl
  intro reg types h
  unfold generate
  rw [hk reg h]; rfl

/-! ### Concrete cases -/

def exKinds : Kinds := ⟨fun t => t.startsWith "Quantized", fun t => t ≠ "Mixin"⟩

def exReg : List Cls := [⟨"QuantizedLinear", ["QuantizedModule", "Linear"]⟩, ⟨"Block", ["Module"]⟩]

example : known exKinds exReg = some ["Linear"] := by decide +kernel

example : generate exKinds exReg ["Model", "Linear", "Block", "Linear", "Block"] = some ["Model", "Block"] := by decide +kernel

/-- The second time. -/
example : (autoquantize exKinds exReg ["Model", "Linear", "Block"] true).bind (fun r => generate exKinds r.2 ["Model", "Linear", "Block"]) = some [] := by decide +kernel

def exSys : Sys := ⟨fun f => if f = "a.py" then some "old" else none, fun i => if i = 0 then ⟨"a.py", false, "new", .start⟩ else ⟨"b.py", false, "x", .start⟩⟩

example : ((run [0, 1, 1, 0, 1] exSys).fs "a.py", (run [0, 1, 1, 0, 1] exSys).fs "b.py", ((run [0, 1, 1, 0, 1] exSys).procs 0).pc) = (some "old", some "x", .refused) := by decide

example : outputFile ["out".toList] "model".toList = ["out".toList, "model".toList, "__init__.py".toList] := by decide

end FF.Emit
