/-!
# The files of a saved model

Models where `save_quantization_state`, `load_quantization_state`, `save_quantized_model` and `load_quantized_model` in `/repo/src/fastforward/quantization/save_load.py` write and look, in which order
files are written, and what loading makes of what it finds, in particular after a save that was interrupted. What is in the files is in `Verif.SaveLoad.State` and `Verif.SaveLoad.Dedupe`; here it is
reduced to names and values.
-/

namespace FF.SaveFiles

/-! ### Model -/

/-- The files of a directory: `model.safetensors` (`state`, in an artifact `quantizer_state.safetensors`), `config.yaml`, `weights.safetensors` and `manifest.json`. -/
inductive File where
  | state | config | weights | manifest
  deriving DecidableEq, Repr

/-- What is saved: the identifier of the model, the values of the quantizers by name and of the weights by name. -/
structure Snap where
  name : String
  quants : List (String × Nat)
  weights : List (String × Nat)
  deriving DecidableEq, Repr

/-- What a file has: nothing that can be read; everything of a save; or, for the configuration, whose text is written piece by piece, the first `n` quantizers. -/
inductive Content where
  | torn
  | full (s : Snap)
  | part (s : Snap) (n : Nat)
  deriving DecidableEq, Repr

/-- The files of a directory. -/
abbrev Files := File → Option Content

/-- The steps of a save: a file is opened, which empties it; the text of the first `n` quantizers has reached the configuration; a file is complete. -/
inductive Op where
  | truncate (f : File)
  | some (n : Nat)
  | write (f : File)
  deriving DecidableEq, Repr

def set (fs : Files) (f : File) (c : Content) : Files := fun g => if g = f then Option.some c else fs g

def apply (s : Snap) (fs : Files) : Op → Files
  | .truncate f => set fs f .torn
  | .some n => set fs .config (.part s n)
  | .write f => set fs f (.full s)

def applyAll (s : Snap) (fs : Files) : List Op → Files
  | [] => fs
  | o :: os => applyAll s (apply s fs o) os

/-- `yaml.dump(config, f, sort_keys=False)` (272-275): the quantizers come last. -/
def dumpConfig (s : Snap) : List Op := .truncate .config :: (List.range s.quants.length).map Op.some ++ [.write .config]

/-- `_write_quantizer_state` (225-276): the parameters, then the configuration. -/
def writeState (s : Snap) : List Op := [.truncate .state, .write .state] ++ dumpConfig s

/-- `save_quantized_model` (589-640): the state of the quantizers, the weights, the manifest. -/
def writeModel (s : Snap) : List Op := writeState s ++ [.truncate .weights, .write .weights, .truncate .manifest, .write .manifest]

inductive Err where
  | notFound | unreadable | wrongName | missingState | wrongWeights | noName
  deriving DecidableEq, Repr

/-- What loading sets: the quantizers and the weights. -/
structure Loaded where
  quants : List (String × Nat)
  weights : List (String × Nat)
  deriving DecidableEq, Repr

/-- Reading `config.yaml` (434-455): the identifier and the names of the quantizers. Without any entry the mapping is missing. -/
def readConfig : Content → Except Err (String × List String)
  | .torn => .error .unreadable
  | .full s => .ok (s.name, s.quants.map Prod.fst)
  | .part _ 0 => .error .unreadable
  | .part s n => .ok (s.name, (s.quants.take n).map Prod.fst)

/-- The tensors of one quantizer (456-477). -/
def fetch (s : Snap) (q : String) : Except Err (String × Nat) := match s.quants.lookup q with
  | some v => .ok (q, v)
  | none => .error .missingState

def fetchAll (s : Snap) : List String → Except Err (List (String × Nat))
  | [] => .ok []
  | q :: qs => match fetch s q, fetchAll s qs with
    | .ok a, .ok b => .ok (a :: b)
    | .error e, _ => .error e
    | _, .error e => .error e

/-- `_load_quantizer_state_from_files` (397-502), up to attaching the quantizers: the tensors are read only if there are quantizers. -/
def loadState (fs : Files) (expected : Option String) : Except Err (List (String × Nat)) := match fs .config, fs .state with
  | some c, some t => match readConfig c with
    | .error e => .error e
    | .ok (name, qs) =>
      if expected.any (· != name) then .error .wrongName
      else if qs.isEmpty then .ok []
      else match t with
        | .full s => fetchAll s qs
        | _ => .error .unreadable
  | _, _ => .error .notFound

/-- Whether the saved weights are those the model expects (728-744). -/
def sameKeys (a b : List String) : Bool := a.all (b.contains ·) && b.all (a.contains ·)

/-- `load_quantized_model` (690-746), into a model with the weights `keys`. -/
def loadModel (fs : Files) (expected : Option String) (keys : List String) : Except Err Loaded :=
  match fs .config, fs .state, fs .weights, fs .manifest with
  | some _, some _, some w, some m => match m with
    | .full _ => match loadState fs expected with
      | .error e => .error e
      | .ok q => match w with
        | .full s => if sameKeys (s.weights.map Prod.fst) keys then .ok ⟨q, s.weights⟩ else .error .wrongWeights
        | _ => .error .unreadable
    | _ => .error .unreadable
  | _, _, _, _ => .error .notFound

/-- Saves that run at the same time: each has a directory, what it saves, and what remains to do. -/
structure Proc where
  dir : String
  snap : Snap
  todo : List Op

structure World where
  fs : String → Files
  procs : Nat → Proc

/-- One step of one save. A schedule that ends early is a crash. -/
def step (w : World) (i : Nat) : World := match (w.procs i).todo with
  | [] => w
  | o :: os =>
    { fs := fun d => if d = (w.procs i).dir then apply (w.procs i).snap (w.fs d) o else w.fs d
      procs := fun j => if j = i then { w.procs i with todo := os } else w.procs j }

def run (w : World) : List Nat → World
  | [] => w
  | i :: is => run (step w i) is

/-- Where a state is. -/
inductive Place where
  | assets (name tag : String)
  | path (p : String)
  deriving DecidableEq, Repr

/-- Where `save_quantization_state` writes and the identifier it records (201-222, 321-334): the name given, or else that of the model. -/
def savePlace (given config : Option String) (tag : String) : Except Err (Place × String) := match given.or config with
  | some n => .ok (.assets n tag, n)
  | none => .error .noName

/-- Where `load_quantization_state` looks and the identifier it expects (366-397). `isPath` is `Path.exists`. -/
def loadPlace (isPath : String → Bool) (given config : Option String) (tag : String) : Except Err (Place × String) :=
  let name := match given with
    | some g => if isPath g then config else some g
    | none => config
  match name with
  | none => .error .noName
  | some n => match given with
    | some g => if isPath g then .ok (.path g, n) else .ok (.assets n tag, n)
    | none => .ok (.assets n tag, n)

/-- The identifier `load_quantized_model` expects (708-718): the one given, or else that of the model; an empty one is not checked. -/
def expectedName (given config : Option String) : Option String := match given.or config with
  | some "" => none
  | e => e

/-! ### Specification -/

/-- Nothing has been saved in a directory. -/
def Fresh (fs : Files) : Prop := ∀ f, fs f = none

/-- The names of quantizers are different. -/
def Distinct (s : Snap) : Prop := (s.quants.map Prod.fst).Nodup

/-! ### Lemmas -/

theorem applyAll_append (s : Snap) (a b : List Op) : ∀ fs, applyAll s fs (a ++ b) = applyAll s (applyAll s fs a) b := by
  induction a with
  | nil => intro fs; rfl
  | cons o a ih => intro fs; exact ih _

theorem applyAll_some (s : Snap) (l : List Nat) : ∀ (fs : Files) (f : File), f ≠ .config → applyAll s fs (l.map Op.some) f = fs f := by
  induction l with
  | nil => intro fs f _; rfl
  | cons n l ih =>
    intro fs f hf
    rw [List.map_cons, applyAll, ih _ f hf]
    simp [apply, set, hf]

theorem dumpConfig_files (s : Snap) (fs : Files) (f : File) : applyAll s fs (dumpConfig s) f = if f = .config then some (.full s) else fs f := by
  unfold dumpConfig
  rw [applyAll_append]
  show apply s (applyAll s (apply s fs (.truncate .config)) ((List.range s.quants.length).map Op.some)) (.write .config) f = _
  by_cases hf : f = .config
  · simp [apply, set, hf]
  · rw [if_neg hf]
    have h1 : ∀ (g : Files), apply s g (.write .config) f = g f := fun g => if_neg hf
    rw [h1, applyAll_some s _ _ f hf]
    exact if_neg hf

theorem writeState_files (s : Snap) (fs : Files) (f : File) : applyAll s fs (writeState s) f = if f = .config ∨ f = .state then some (.full s) else fs f := by
  unfold writeState
  rw [applyAll_append, dumpConfig_files]
  cases f <;> simp [applyAll, apply, set]

theorem writeModel_files (s : Snap) (fs : Files) (f : File) : applyAll s fs (writeModel s) f = some (.full s) := by
  unfold writeModel
  rw [applyAll_append]
  cases f <;> simp [applyAll, apply, set, writeState_files]

theorem lookup_nodup : ∀ {l : List (String × Nat)}, (l.map Prod.fst).Nodup → ∀ {q v}, (q, v) ∈ l → l.lookup q = some v
  | [], _, _, _, h => by cases h
  | (a, b) :: l, hn, q, v, h => by
    simp only [List.map_cons, List.nodup_cons] at hn
    rw [List.lookup_cons]
    rcases List.mem_cons.1 h with h | h
    · cases h; simp
    · have : q ≠ a := fun e => hn.1 (e ▸ List.mem_map_of_mem (f := Prod.fst) h)
      have hb : (q == a) = false := by simpa using this
      rw [hb]
      exact lookup_nodup hn.2 h

theorem fetchAll_sub (s : Snap) (hd : Distinct s) : ∀ l : List (String × Nat), (∀ e ∈ l, e ∈ s.quants) → fetchAll s (l.map Prod.fst) = .ok l
  | [], _ => rfl
  | (q, v) :: l, h => by
    have h1 := lookup_nodup hd (h (q, v) (List.mem_cons_self ..))
    have h2 := fetchAll_sub s hd l fun e he => h e (List.mem_cons_of_mem _ he)
    simp only [List.map_cons, fetchAll, fetch, h1, h2]

theorem loadState_full (s : Snap) (hd : Distinct s) (fs : Files) (hc : fs .config = some (.full s)) (ht : fs .state = some (.full s)) (e : Option String) (he : ∀ n, e = some n → n = s.name) :
    loadState fs e = .ok s.quants := by
  unfold loadState
  simp only [hc, ht, readConfig]
  have h1 : e.any (· != s.name) = false := by
    cases e with
    | none => rfl
    | some n => simp [he n rfl]
  rw [h1]
  simp only [Bool.false_eq_true, if_false]
  cases hq : s.quants with
  | nil => simp
  | cons a l =>
    simp only [List.map_cons, List.isEmpty_cons, Bool.false_eq_true, if_false]
    have := fetchAll_sub s hd s.quants fun e he => he
    rw [hq] at this
    simpa using this

theorem sameKeys_iff (a b : List String) : sameKeys a b = true ↔ ∀ x, x ∈ a ↔ x ∈ b := by
  unfold sameKeys
  simp only [Bool.and_eq_true, List.all_eq_true, List.contains_eq_mem, decide_eq_true_eq]
  constructor
  · rintro ⟨h1, h2⟩ x; exact ⟨h1 x, h2 x⟩
  · intro h; exact ⟨fun x => (h x).1, fun x => (h x).2⟩

theorem loadModel_full (s : Snap) (hd : Distinct s) (fs : Files) (hf : ∀ f, fs f = some (.full s)) (e : Option String) (he : ∀ n, e = some n → n = s.name) (keys : List String)
    (hk : ∀ x, x ∈ s.weights.map Prod.fst ↔ x ∈ keys) : loadModel fs e keys = .ok ⟨s.quants, s.weights⟩ := by
  unfold loadModel
  simp only [hf, loadState_full s hd fs (hf _) (hf _) e he, (sameKeys_iff _ _).2 hk, if_true]

/-- A file that is not written completely cannot be read, if it was not there before; the configuration aside. -/
theorem not_written (s : Snap) (f : File) (hf : f ≠ .config) (l : List Op) : ∀ fs : Files, (fs f = none ∨ fs f = some .torn) → .write f ∉ l → (applyAll s fs l f = none ∨ applyAll s fs l f = some .torn) := by
  induction l with
  | nil => intro fs h _; exact h
  | cons o l ih =>
    intro fs h hn
    simp only [List.mem_cons, not_or] at hn
    refine ih _ ?_ hn.2
    cases o with
    | truncate g =>
      by_cases hg : f = g
      · exact .inr (by simp [apply, set, hg])
      · simpa [apply, set, hg] using h
    | some n => simpa [apply, set, hf] using h
    | write g =>
      have hg : f ≠ g := fun e => hn.1 (by rw [e])
      simpa [apply, set, hg] using h

/-- Before a save is complete, its last file is not written. -/
theorem last_missing {α : Type} [DecidableEq α] (p l : List α) (a : α) (h : l <+: p ++ [a]) (hp : a ∉ p) : l = p ++ [a] ∨ a ∉ l := by
  rcases List.prefix_concat_iff.1 h with h | h
  · exact .inl h
  · exact .inr fun ha => hp (h.subset ha)

/-- What a save that nobody interferes with has done. -/
theorem run_exclusive (i : Nat) : ∀ (sched : List Nat) (w : World), (∀ j, j ≠ i → (w.procs j).dir ≠ (w.procs i).dir) →
    ∃ done, done ++ ((run w sched).procs i).todo = (w.procs i).todo ∧ (run w sched).fs (w.procs i).dir = applyAll (w.procs i).snap (w.fs (w.procs i).dir) done ∧
      (∀ j, ((run w sched).procs j).dir = (w.procs j).dir ∧ ((run w sched).procs j).snap = (w.procs j).snap) := by
  intro sched
  induction sched with
  | nil => intro w _; exact ⟨[], rfl, rfl, fun j => ⟨rfl, rfl⟩⟩
  | cons k sched ih =>
    intro w hx
    have hdir : ∀ j, ((step w k).procs j).dir = (w.procs j).dir ∧ ((step w k).procs j).snap = (w.procs j).snap := by
      intro j
      unfold step
      split
      · exact ⟨rfl, rfl⟩
      · by_cases hj : j = k
        · subst hj; simp
        · simp [hj]
    obtain ⟨done, h1, h2, h3⟩ := ih (step w k) (by
      intro j hj
      rw [(hdir j).1, (hdir i).1]
      exact hx j hj)
    have h3' : ∀ j, ((run w (k :: sched)).procs j).dir = (w.procs j).dir ∧ ((run w (k :: sched)).procs j).snap = (w.procs j).snap := fun j => ⟨(h3 j).1.trans (hdir j).1, (h3 j).2.trans (hdir j).2⟩
    rw [(hdir i).1, (hdir i).2] at h2
    have hr : run w (k :: sched) = run (step w k) sched := rfl
    by_cases hk : k = i
    · subst hk
      cases ht : (w.procs k).todo with
      | nil =>
        have hs : step w k = w := by rw [step, ht]
        rw [hs] at h1 h2
        exact ⟨done, by rw [hr, hs, h1, ht], by rw [hr, hs]; exact h2, h3'⟩
      | cons o os =>
        have hs1 : ((step w k).procs k).todo = os := by rw [step, ht]; simp
        have hs2 : (step w k).fs (w.procs k).dir = apply (w.procs k).snap (w.fs (w.procs k).dir) o := by rw [step, ht]; simp
        refine ⟨o :: done, ?_, ?_, h3'⟩
        · rw [hr, List.cons_append, h1, hs1]
        · rw [hr, h2, hs2]; rfl
    · refine ⟨done, ?_, ?_, h3'⟩
      · rw [hr, h1]
        unfold step
        split
        · rfl
        · simp [show i ≠ k from fun e => hk e.symm]
      · rw [hr, h2]
        congr 1
        unfold step
        split
        · rfl
        · have := hx k hk
          simp [show (w.procs i).dir ≠ (w.procs k).dir from fun e => this e.symm]

theorem run_other (d : String) : ∀ (sched : List Nat) (w : World), (∀ j ∈ sched, (w.procs j).dir ≠ d) → (run w sched).fs d = w.fs d := by
  intro sched
  induction sched with
  | nil => intro w _; rfl
  | cons k sched ih =>
    intro w hx
    show (run (step w k) sched).fs d = _
    have hk := hx k (List.mem_cons_self ..)
    rw [ih]
    · unfold step
      split
      · rfl
      · simp [show d ≠ (w.procs k).dir from fun e => hk e.symm]
    · intro j hj
      have := hx j (List.mem_cons_of_mem _ hj)
      unfold step
      split
      · exact this
      · by_cases hjk : j = k
        · subst hjk; simpa using this
        · simpa [hjk] using this

/-! ### Properties -/

/-- **C126 (partial).** A model that was saved completely is loaded with exactly what was saved, whatever was in the directory before, including the remains of an interrupted save, and whatever is saved
elsewhere at the same time. Missing: several saves to one directory at the same time, see `torn_by_concurrency`. -/
theorem saved_model_loaded_partial (w : World) (sched : List Nat) (i : Nat) (hp : (w.procs i).todo = writeModel (w.procs i).snap) (hx : ∀ j, j ≠ i → (w.procs j).dir ≠ (w.procs i).dir)
    (hdone : ((run w sched).procs i).todo = []) (hd : Distinct (w.procs i).snap) (keys : List String) (hk : ∀ x, x ∈ (w.procs i).snap.weights.map Prod.fst ↔ x ∈ keys) :
    loadModel ((run w sched).fs (w.procs i).dir) (some (w.procs i).snap.name) keys = .ok ⟨(w.procs i).snap.quants, (w.procs i).snap.weights⟩ := by
  obtain ⟨done, h1, h2, _⟩ := run_exclusive i sched w hx
  rw [hdone, List.append_nil, hp] at h1
  subst h1
  exact loadModel_full _ hd _ (fun f => by rw [h2]; exact writeModel_files _ _ f) _ (by rintro n h; cases h; rfl) keys hk

/-- **C126 (partial).** A state of quantizers that was saved completely is loaded with exactly what was saved. Missing: as for models. -/
theorem saved_state_loaded_partial (w : World) (sched : List Nat) (i : Nat) (hp : (w.procs i).todo = writeState (w.procs i).snap) (hx : ∀ j, j ≠ i → (w.procs j).dir ≠ (w.procs i).dir)
    (hdone : ((run w sched).procs i).todo = []) (hd : Distinct (w.procs i).snap) :
    loadState ((run w sched).fs (w.procs i).dir) (some (w.procs i).snap.name) = .ok (w.procs i).snap.quants := by
  obtain ⟨done, h1, h2, _⟩ := run_exclusive i sched w hx
  rw [hdone, List.append_nil, hp] at h1
  subst h1
  refine loadState_full _ hd _ ?_ ?_ _ (by rintro n h; cases h; rfl)
  · rw [h2, writeState_files]; rfl
  · rw [h2, writeState_files]; rfl

/-- **C126.** The first save of a model to a directory can be interrupted anywhere: unless it was complete, loading fails, and no model is made of parts. -/
theorem interrupted_model_refused (w : World) (sched : List Nat) (i : Nat) (hp : (w.procs i).todo = writeModel (w.procs i).snap) (hx : ∀ j, j ≠ i → (w.procs j).dir ≠ (w.procs i).dir)
    (hfresh : Fresh (w.fs (w.procs i).dir)) (e : Option String) (keys : List String) (r : Loaded) (hr : loadModel ((run w sched).fs (w.procs i).dir) e keys = .ok r) : ((run w sched).procs i).todo = [] := by
  obtain ⟨done, h1, h2, _⟩ := run_exclusive i sched w hx
  generalize (w.procs i).snap = s at *
  have hsplit : writeModel s = (writeState s ++ [.truncate .weights, .write .weights, .truncate .manifest]) ++ [.write .manifest] := by simp [writeModel]
  have hpre : done <+: (writeState s ++ [.truncate .weights, .write .weights, .truncate .manifest]) ++ [.write .manifest] := by
    rw [← hsplit, ← hp, ← h1]; exact List.prefix_append ..
  rcases last_missing _ _ _ hpre (by simp [writeState, dumpConfig]) with h | h
  · rw [← hsplit, ← hp, ← h1] at h
    have hl := congrArg List.length h
    rw [List.length_append] at hl
    exact List.length_eq_zero_iff.1 (by omega)
  · exfalso
    have hm := not_written s .manifest (by simp) done _ (.inl (hfresh .manifest)) h
    rw [← h2] at hm
    unfold loadModel at hr
    rcases hm with hm | hm
    · simp only [hm] at hr
      split at hr <;> simp_all
    · cases hc : (run w sched).fs (w.procs i).dir .config <;> cases hs : (run w sched).fs (w.procs i).dir .state <;> cases hw : (run w sched).fs (w.procs i).dir .weights <;>
        simp [hm, hc, hs, hw] at hr

/-- **C126 (partial).** The first save of a state can be interrupted anywhere: unless all of the configuration was written, loading fails or sets some of the quantizers that were to be saved, with their
values. Missing: that it then fails, see `incomplete_state_loaded`. -/
theorem interrupted_state_partial (w : World) (sched : List Nat) (i : Nat) (_hp : (w.procs i).todo = writeState (w.procs i).snap) (hx : ∀ j, j ≠ i → (w.procs j).dir ≠ (w.procs i).dir)
    (hfresh : Fresh (w.fs (w.procs i).dir)) (hd : Distinct (w.procs i).snap) (e : Option String) (q : List (String × Nat)) (hq : loadState ((run w sched).fs (w.procs i).dir) e = .ok q) :
    q <+: (w.procs i).snap.quants := by
  obtain ⟨done, h1, h2, _⟩ := run_exclusive i sched w hx
  generalize (w.procs i).snap = s at *
  -- every file is absent, torn, complete, or a part
  have hc : ∀ (l : List Op) (fs : Files), (∀ f, fs f = none ∨ fs f = some .torn ∨ fs f = some (.full s) ∨ ∃ n, fs f = some (.part s n)) →
      ∀ f, applyAll s fs l f = none ∨ applyAll s fs l f = some .torn ∨ applyAll s fs l f = some (.full s) ∨ ∃ n, applyAll s fs l f = some (.part s n) := by
    intro l
    induction l with
    | nil => intro fs h; exact h
    | cons o l ih =>
      intro fs h
      refine ih _ fun f => ?_
      cases o with
      | truncate g =>
        by_cases hg : f = g
        · exact .inr (.inl (by simp [apply, set, hg]))
        · simpa [apply, set, hg] using h f
      | some n =>
        by_cases hg : f = .config
        · exact .inr (.inr (.inr ⟨n, by simp [apply, set, hg]⟩))
        · simpa [apply, set, hg] using h f
      | write g =>
        by_cases hg : f = g
        · exact .inr (.inr (.inl (by simp [apply, set, hg])))
        · simpa [apply, set, hg] using h f
  have hall := hc done (w.fs (w.procs i).dir) fun f => .inl (hfresh f)
  rw [← h2] at hall
  generalize (run w sched).fs (w.procs i).dir = fs at *
  have hfull : ∀ l : List (String × Nat), l <+: s.quants → (∀ t, fs .state = some t → ∀ name, (if e.any (· != name) then Except.error Err.wrongName else if (l.map Prod.fst).isEmpty then .ok [] else match t with
        | .full s' => fetchAll s' (l.map Prod.fst)
        | _ => .error .unreadable) = .ok q → q <+: s.quants) := by
    intro l hl t ht name h
    split at h
    · cases h
    · split at h
      · cases h; exact List.nil_prefix
      · have hs : t = .torn ∨ t = .full s ∨ ∃ n, t = .part s n := by
          have := hall .state
          rw [ht] at this
          simpa using this
        rcases hs with rfl | rfl | ⟨n, rfl⟩
        · cases h
        · simp only at h
          rw [fetchAll_sub s hd l fun e he => hl.subset he] at h
          cases h
          exact hl
        · cases h
  unfold loadState at hq
  split at hq
  · rename_i c t hcfg hst
    have hs : c = .torn ∨ c = .full s ∨ ∃ n, c = .part s n := by
      have := hall .config
      rw [hcfg] at this
      simpa using this
    rcases hs with rfl | rfl | ⟨n, rfl⟩
    · cases hq
    · exact hfull s.quants (List.prefix_refl _) t hst s.name hq
    · cases n with
      | zero => cases hq
      | succ n => exact hfull (s.quants.take (n + 1)) (List.take_prefix ..) t hst s.name hq
  · cases hq

/-- **C126.** Saving changes nothing outside the directory it saves to. -/
theorem others_kept (w : World) (sched : List Nat) (d : String) (h : ∀ j ∈ sched, (w.procs j).dir ≠ d) : (run w sched).fs d = w.fs d := run_other d sched w h

/-- **C126.** What was saved for another model is refused. -/
theorem other_model_refused (fs : Files) (s : Snap) (hc : fs .config = some (.full s)) (n : String) (hn : n ≠ s.name) (keys : List String) :
    (∀ q, loadState fs (some n) ≠ .ok q) ∧ ∀ r, loadModel fs (some n) keys ≠ .ok r := by
  have h1 : ∀ q, loadState fs (some n) ≠ .ok q := by
    intro q hq
    unfold loadState at hq
    rw [hc] at hq
    cases ht : fs .state with
    | none => simp [ht] at hq
    | some t => simp [ht, readConfig, hn] at hq
  refine ⟨h1, fun r hr => ?_⟩
  unfold loadModel at hr
  cases hst : fs .state <;> cases hw : fs .weights <;> cases hm : fs .manifest <;> simp only [hc, hst, hw, hm] at hr <;> try (cases hr; done)
  split at hr
  · split at hr
    · cases hr
    · rename_i q hq; exact h1 q hq
  · cases hr

/-- **C126.** Weights are never missing or superfluous after loading: a model with other weights is refused. -/
theorem weights_complete (fs : Files) (e : Option String) (keys : List String) (r : Loaded) (h : loadModel fs e keys = .ok r) : ∀ x, x ∈ r.weights.map Prod.fst ↔ x ∈ keys := by
  unfold loadModel at h
  split at h
  · split at h
    · split at h
      · cases h
      · split at h
        · split at h
          · rename_i hk
            cases h
            exact (sameKeys_iff _ _).1 hk
          · cases h
        · cases h
    · cases h
  · cases h

/-- **C126 (partial).** A state is looked for where it was saved, and the identifier expected is the one that was recorded, if the same name and tag are given, or none, both times.
Missing: names that are paths of existing files, see `saved_under_path`. -/
theorem found_again_partial (isPath : String → Bool) (given config : Option String) (tag : String) (h : ∀ g, given = some g → isPath g = false) : loadPlace isPath given config tag = savePlace given config tag := by
  cases given with
  | none => cases config <;> rfl
  | some g => simp [loadPlace, savePlace, h g rfl]

/-- **C126.** States with different names or tags are in different places. -/
theorem places_differ (g g' c c' : Option String) (t t' : String) (p : Place) (n n' : String) (h : savePlace g c t = .ok (p, n)) (h' : savePlace g' c' t' = .ok (p, n')) : n = n' ∧ t = t' := by
  unfold savePlace at h h'
  cases hg : g.or c <;> cases hg' : g'.or c' <;> simp [hg] at h <;> simp [hg'] at h'
  obtain ⟨rfl, rfl⟩ := h
  obtain ⟨h1, rfl⟩ := h'
  cases h1
  exact ⟨rfl, rfl⟩

/-- **C126.** A model that is saved and loaded without naming it is accepted, with any identifier; with an empty identifier nothing is checked. -/
theorem own_name_accepted (config : Option String) (tag : String) (p : Place) (n : String) (h : savePlace none config tag = .ok (p, n)) :
    (∀ m, expectedName none config = some m → m = n) ∧ expectedName (some "") config = none := by
  cases config with
  | none => cases h
  | some c =>
    cases h
    refine ⟨fun m hm => ?_, rfl⟩
    unfold expectedName at hm
    simp only [Option.or] at hm
    split at hm
    · cases hm
    · cases hm; rfl

/-- **C126.** The identifier of the model is what is expected unless another is given. -/
theorem expected_name (given config : Option String) (n : String) (hn : n ≠ "") : expectedName given config = some n ↔ given = some n ∨ given = none ∧ config = some n := by
  unfold expectedName
  cases given with
  | none =>
    cases config with
    | none => simp [Option.or]
    | some c =>
      simp only [Option.or]
      split
      · rename_i h
        cases h
        simp [hn.symm]
      · simp
  | some g =>
    simp only [Option.or]
    split
    · rename_i h
      cases h
      simp [hn.symm]
    · simp

/-! ### Deviations -/

/-- **C126, deviation.** If saving over an earlier save of the model is interrupted after the state of the quantizers is written, loading succeeds and sets the new quantizers and the old weights. -/
theorem torn_by_crash (old new : Snap) (hn : old.name = new.name) (hd : Distinct new) (keys : List String) (hk : ∀ x, x ∈ old.weights.map Prod.fst ↔ x ∈ keys) (fs : Files) (hf : ∀ f, fs f = some (.full old)) :
    ∃ done, done <+: writeModel new ∧ loadModel (applyAll new fs done) (some old.name) keys = .ok ⟨new.quants, old.weights⟩ := by
  refine ⟨writeState new, List.prefix_append .., ?_⟩
  have h : ∀ f, applyAll new fs (writeState new) f = if f = .config ∨ f = .state then some (.full new) else some (.full old) := fun f => by rw [writeState_files, hf]
  have hs := loadState_full new hd (applyAll new fs (writeState new)) (by rw [h]; rfl) (by rw [h]; rfl) (some old.name) (by rintro n h; cases h; exact hn)
  unfold loadModel
  simp [h, hs, (sameKeys_iff _ _).2 hk]

/-- **C126, deviation.** If the first save of a state is interrupted while the configuration is written, loading succeeds and sets only some of the quantizers. -/
theorem incomplete_state_loaded (s : Snap) (hd : Distinct s) (h2 : 2 ≤ s.quants.length) (fs : Files) :
    ∃ done, done <+: writeState s ∧ loadState (applyAll s fs done) (some s.name) = .ok (s.quants.take 1) ∧ s.quants.take 1 ≠ s.quants := by
  have hr : List.range s.quants.length = [0, 1] ++ (List.range s.quants.length).drop 2 := by
    conv => lhs; rw [← List.take_append_drop 2 (List.range s.quants.length)]
    rw [List.take_range, Nat.min_eq_left h2]
    rfl
  refine ⟨[.truncate .state, .write .state, .truncate .config, .some 0, .some 1], ?_, ?_, ?_⟩
  · unfold writeState dumpConfig
    rw [hr]
    exact ⟨((List.range s.quants.length).drop 2).map Op.some ++ [.write .config], by simp⟩
  · have hf := fetchAll_sub s hd (s.quants.take 1) fun e he => List.mem_of_mem_take he
    have hz : s.quants ≠ [] := fun hz => by rw [hz] at h2; simp at h2
    simp only [loadState, applyAll, apply, set]
    simp only [List.map_take] at hf
    simp [readConfig, hf, hz]
  · intro h
    have := congrArg List.length h
    rw [List.length_take] at this
    omega

/-- **C126, deviation.** Of two saves to one directory at the same time both succeed, and what is loaded is the quantizers of one and the weights of the other. -/
theorem torn_by_concurrency (a b : Nat) : ∃ sched w, (∀ j, (w.procs j).dir = "d") ∧ (∀ j, (w.procs j).todo = writeModel (w.procs j).snap) ∧ ((run w sched).procs 0).todo = [] ∧ ((run w sched).procs 1).todo = [] ∧
    loadModel ((run w sched).fs "d") (some "m") ["w"] = .ok ⟨[("q", b)], [("w", a)]⟩ ∧ (w.procs 0).snap = ⟨"m", [("q", a)], [("w", a)]⟩ ∧ (w.procs 1).snap = ⟨"m", [("q", b)], [("w", b)]⟩ := by
  refine ⟨[0, 0, 0, 0, 0, 1, 1, 1, 1, 1, 1, 1, 1, 1, 0, 0, 0, 0], ⟨fun _ _ => none, fun j => if j = 0 then ⟨"d", ⟨"m", [("q", a)], [("w", a)]⟩, writeModel ⟨"m", [("q", a)], [("w", a)]⟩⟩
    else ⟨"d", ⟨"m", [("q", b)], [("w", b)]⟩, writeModel ⟨"m", [("q", b)], [("w", b)]⟩⟩⟩, ?_, ?_, ?_, ?_, ?_, ?_, ?_⟩
  · intro j; dsimp only; split <;> rfl
  · intro j; dsimp only; split <;> rfl
  all_goals rfl

/-- **C126, deviation.** A state saved under a name that is also a path, such as that of a local checkpoint, is not found under it: loading takes the path for that of a configuration; without a name in
the model it fails at once. -/
theorem saved_under_path (isPath : String → Bool) (g : String) (config : Option String) (tag : String) (h : isPath g = true) :
    savePlace (some g) config tag = .ok (.assets g tag, g) ∧ ∀ n, loadPlace isPath (some g) config tag ≠ .ok (.assets g tag, n) ∧ loadPlace isPath (some g) none tag = .error .noName := by
  refine ⟨rfl, fun n => ⟨?_, ?_⟩⟩
  · cases config <;> simp [loadPlace, h]
  · simp [loadPlace, h]

/-- **C126, deviation.** With the path of a configuration the recorded identifier is checked nevertheless, against that of the model; the comment says it is not. -/
theorem path_checked (isPath : String → Bool) (g n : String) (tag : String) (h : isPath g = true) : loadPlace isPath (some g) (some n) tag = .ok (.path g, n) := by simp [loadPlace, h]

/-- **C126, deviation.** A model that was saved under a name given explicitly is refused, by the same model, unless the name is given again. -/
theorem own_save_refused (s : Snap) (c : String) (hc : c ≠ "") (hn : c ≠ s.name) (fs : Files) (hf : ∀ f, fs f = some (.full s)) (keys : List String) : ∀ r, loadModel fs (expectedName none (some c)) keys ≠ .ok r := by
  have : expectedName none (some c) = some c := (expected_name none (some c) c hc).2 (.inr ⟨rfl, rfl⟩)
  rw [this]
  exact (other_model_refused fs s (hf _) c hn keys).2

/-! ### Concrete cases -/

def exSnap : Snap := ⟨"m", [("a", 1), ("b", 2)], [("w", 7)]⟩

def exWorld : World := ⟨fun _ _ => none, fun j => ⟨if j = 0 then "d" else "e", exSnap, writeModel exSnap⟩⟩

example : Distinct exSnap := by unfold Distinct; decide +kernel

example : (∀ j, j ≠ 0 → (exWorld.procs j).dir ≠ (exWorld.procs 0).dir) ∧ (exWorld.procs 0).todo = writeModel (exWorld.procs 0).snap ∧ Fresh (exWorld.fs "d") := by
  refine ⟨fun j hj => ?_, rfl, fun f => rfl⟩
  simp [exWorld, hj]

example : ((run exWorld [0, 0, 1, 0, 0, 0, 1, 0, 0, 0, 0, 0]).procs 0).todo = [] ∧ loadModel ((run exWorld [0, 0, 1, 0, 0, 0, 1, 0, 0, 0, 0, 0]).fs "d") (some "m") ["w"] = .ok ⟨[("a", 1), ("b", 2)], [("w", 7)]⟩ := ⟨rfl, rfl⟩

example : loadModel ((run exWorld [0, 0, 0, 0, 0, 0]).fs "d") (some "m") ["w"] = .error .notFound := rfl

example : loadPlace (fun _ => false) (some "x") (some "y") "main" = .ok (.assets "x" "main", "x") := rfl

end FF.SaveFiles
