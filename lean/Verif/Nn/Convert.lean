import Mathlib.Data.Nat.Notation

/-! # `quantize_model`: converting a model to quantized modules (C86)

Models `nn/quantized_module.py`: `quantize_model`, `QuantizedModule.quantize_children`, `_quantize_module`, `_check_quantizable`, `_missing_modules`,
`surrogate_quantized_modules`, `quantized_module_map`. -/

namespace FF.Convert

/-! ### Model -/

/-- What the code asks about classes: `issubclass(c, Quantizer)`, `issubclass(c, QuantizedModule)`, and which one is `torch.nn.Module`. -/
structure Classes where
  quantizer : ℕ → Bool
  quantized : ℕ → Bool
  base : ℕ

/-- An entry of a `ModuleConversionDict`: a class or `SKIP_QUANTIZATION` (366-373). -/
inductive Conv
  | to (c : ℕ)
  | skip
  deriving DecidableEq

/-- A module: its class, the modules in it by name, everything else it holds (parameters, buffers, attributes), and how often
`__init_quantization__` ran on it. Simplification: the quantizer stubs that `__init_quantization__` attaches are not listed as children; `quantize_children`
passes over quantizers (220-222). -/
structure Mod where
  cls : ℕ
  children : List (String × ℕ)
  data : ℕ
  inits : ℕ
  deriving DecidableEq

/-- All modules. -/
abbrev Heap := ℕ → Mod

abbrev Map := ℕ → Option Conv

inductive Err
  /-- `QuantizationError` of `_check_quantizable` (404-427), with the classes it names. -/
  | missing (l : List ℕ)
  /-- `QuantizationError` of `_quantize_module` (544-551). -/
  | unsupported (c : ℕ)
  | recursion
  deriving DecidableEq

/-- `named_children`: every child once. -/
def childrenOf (h : Heap) (m : ℕ) : List ℕ := ((h m).children.map (·.2)).eraseDups

/-- `model.modules()`. Simplification: without the memo of visited modules; the caller makes a set of what it gets. -/
def modules (h : Heap) : ℕ → ℕ → List ℕ
  | 0, m => [m]
  | f + 1, m => m :: (childrenOf h m).flatMap (modules h f)

/-- The test of `_missing_modules` (391-400). -/
def missingClass (K : Classes) (map : Map) (skipQ : Bool) (c : ℕ) : Bool :=
  match map c with
  | some _ => false
  | none => !(c == K.base) && !K.quantizer c && !(skipQ && K.quantized c)

/-- `_missing_modules` (376-401). -/
def missing (K : Classes) (map : Map) (skipQ : Bool) (f : ℕ) (h : Heap) (m : ℕ) : List ℕ :=
  ((modules h f m).map fun x => (h x).cls).eraseDups.filter (missingClass K map skipQ)

/-- `module.__class__ = quantized_class; module.__init_quantization__()` (561-564). -/
def install (h : Heap) (m c : ℕ) : Heap := fun x => if x = m then { h m with cls := c, inits := (h m).inits + 1 } else h x

/-- `_quantize_module` (542-565). -/
def convert (map : Map) (m : ℕ) (h : Heap) : Except Err Unit × Heap :=
  match map (h m).cls with
  | none => (.error (.unsupported (h m).cls), h)
  | some .skip => (.ok (), h)
  | some (.to c) => (.ok (), install h m c)

/-- `quantize_children` (193-228), with `f` for `quantize_model` on a child. -/
def loop (K : Classes) (f : ℕ → Heap → Except Err Unit × Heap) : List ℕ → Heap → Except Err Unit × Heap
  | [], h => (.ok (), h)
  | c :: l, h =>
    if K.quantizer (h c).cls then loop K f l h
    else match f c h with
      | (.error e, h) => (.error e, h)
      | (.ok _, h) => loop K f l h

/-- `quantize_model` (494-539). The first number bounds the depth of the model. Simplification: classes do not override `quantize_children`. -/
def quantize (K : Classes) (map : Map) (skipQ : Bool) : ℕ → Bool → ℕ → Heap → Except Err Unit × Heap
  | 0, _, _, h => (.error .recursion, h)
  | f + 1, recursive, m, h =>
    match missing K map skipQ f h m with
    | c :: l => (.error (.missing (c :: l)), h)
    | [] =>
      match (if skipQ && K.quantized (h m).cls then (.ok (), h) else convert map m h) with
      | (.error e, h) => (.error e, h)
      | (.ok _, h) =>
        if K.quantized (h m).cls && recursive then loop K (quantize K map skipQ f true) (childrenOf h m) h
        else (.ok (), h)

/-- `{**quantized_module_map(), **(extra_conversion or {})}` (522-524). -/
def merged (ignoreGlobal : Bool) (glob extra : Map) : Map := fun c =>
  match extra c with
  | some t => some t
  | none => if ignoreGlobal then none else glob c

/-- `surrogate_quantized_modules` (430-491), where `surr c` is the class created for `c`. -/
def surrogates (K : Classes) (glob : Map) (surr : ℕ → ℕ) (f : ℕ) (h : Heap) (m : ℕ) : Map := fun c =>
  if c ∈ missing K glob true f h m then some (.to (surr c)) else none

/-- `quantized_module_map` (568-597): `reg` lists the pairs of a module class and a quantized class that `_record_quantized_module` (95-124) noted, in order;
`allowed` is `_is_allow_listed_quantized_module`. -/
def moduleMap (allowed : ℕ → Bool) (reg : List (ℕ × ℕ)) (c : ℕ) : Option ℕ := (((reg.filter fun p => p.1 == c).map (·.2)).filter allowed).getLast?

/-! ### Specification -/

/-- The modules of a model. -/
inductive Reach (h : Heap) (m : ℕ) : ℕ → Prop
  | self : Reach h m m
  | child {a c : ℕ} {name : String} : Reach h m a → (name, c) ∈ (h a).children → Reach h m c

/-- No module contains itself: children are of lower rank. -/
def Ranked (h : Heap) (rank : ℕ → ℕ) : Prop := ∀ m c name, (name, c) ∈ (h m).children → rank c < rank m

/-- A class without conversion that needs one. -/
def Unknown (K : Classes) (map : Map) (skipQ : Bool) (c : ℕ) : Prop :=
  map c = none ∧ c ≠ K.base ∧ K.quantizer c = false ∧ ¬ (skipQ = true ∧ K.quantized c = true)

/-- What is to become of a module: the quantized class for its class, initialized once; nothing else changes. -/
def final (K : Classes) (map : Map) (skipQ : Bool) (x : Mod) : Mod :=
  if skipQ = true ∧ K.quantized x.cls = true then x
  else match map x.cls with
    | some (.to c) => { x with cls := c, inits := x.inits + 1 }
    | _ => x

/-- The modules to convert: the model, and the children, other than quantizers, of quantized modules. -/
inductive Visited (K : Classes) (map : Map) (skipQ : Bool) (h : Heap) (m : ℕ) : ℕ → Prop
  | self : Visited K map skipQ h m m
  | child {a c : ℕ} {name : String} : Visited K map skipQ h m a → K.quantized (final K map skipQ (h a)).cls = true → (name, c) ∈ (h a).children →
      K.quantizer (h c).cls = false → Visited K map skipQ h m c

/-- Every module is in one module only. -/
def Tree (h : Heap) (root : ℕ) : Prop :=
  ∀ a b c name name', Reach h root a → Reach h root b → (name, c) ∈ (h a).children → (name', c) ∈ (h b).children → a = b

/-- A class is not both a quantizer and a quantized module, and conversions lead to quantized modules. -/
structure Sound (K : Classes) (map : Map) : Prop where
  disjoint : ∀ c, K.quantized c = true → K.quantizer c = false
  conv : ∀ c c', map c = some (.to c') → K.quantized c' = true

/-! ### Lemmas -/

theorem nodup_eraseDups (l : List ℕ) : l.eraseDups.Nodup := by
  match l with
  | [] => simp
  | a :: l =>
    rw [List.eraseDups_cons, List.nodup_cons]
    refine ⟨fun h => ?_, nodup_eraseDups _⟩
    rw [List.mem_eraseDups, List.mem_filter] at h
    simp at h
termination_by l.length
decreasing_by
  have := List.length_filter_le (fun b => !b == a) l
  simp only [List.length_cons]
  omega

theorem mem_childrenOf {h : Heap} {m c : ℕ} : c ∈ childrenOf h m ↔ ∃ name, (name, c) ∈ (h m).children := by
  simp only [childrenOf, List.mem_eraseDups, List.mem_map, Prod.exists]
  constructor
  · rintro ⟨n, c', hm, rfl⟩
    exact ⟨n, hm⟩
  · rintro ⟨n, hm⟩
    exact ⟨n, c, hm, rfl⟩

theorem Reach.rank_le {h : Heap} {rank : ℕ → ℕ} (hr : Ranked h rank) {m x : ℕ} (hx : Reach h m x) : rank x ≤ rank m := by
  induction hx with
  | self => exact Nat.le_refl _
  | child _ hc ih => exact Nat.le_of_lt (Nat.lt_of_lt_of_le (hr _ _ _ hc) ih)

theorem Reach.trans {h : Heap} {a b c : ℕ} (h1 : Reach h a b) (h2 : Reach h b c) : Reach h a c := by
  induction h2 with
  | self => exact h1
  | child _ hc ih => exact .child ih hc

/-- The first step. -/
theorem Reach.head {h : Heap} {m x : ℕ} (hx : Reach h m x) : x = m ∨ ∃ c name, (name, c) ∈ (h m).children ∧ Reach h c x := by
  induction hx with
  | self => exact Or.inl rfl
  | child hr hc ih =>
    rename_i a c name
    rcases ih with rfl | ⟨b, n, hb, h2⟩
    · exact Or.inr ⟨c, name, hc, .self⟩
    · exact Or.inr ⟨b, n, hb, .child h2 hc⟩

theorem Visited.reach {K : Classes} {map : Map} {skipQ : Bool} {h : Heap} {m x : ℕ} (hx : Visited K map skipQ h m x) : Reach h m x := by
  induction hx with
  | self => exact .self
  | child _ _ hc _ ih => exact .child ih hc

theorem Visited.head {K : Classes} {map : Map} {skipQ : Bool} {h : Heap} {m x : ℕ} (hx : Visited K map skipQ h m x) : x = m ∨
    K.quantized (final K map skipQ (h m)).cls = true ∧ ∃ c name, (name, c) ∈ (h m).children ∧ K.quantizer (h c).cls = false ∧ Visited K map skipQ h c x := by
  induction hx with
  | self => exact Or.inl rfl
  | child hv hq hc hn ih =>
    rename_i a c name
    rcases ih with rfl | ⟨hm, b, n, hb, hbn, h2⟩
    · exact Or.inr ⟨hq, c, name, hc, hn, .self⟩
    · exact Or.inr ⟨hm, b, n, hb, hbn, .child h2 hq hc hn⟩

theorem Visited.cons {K : Classes} {map : Map} {skipQ : Bool} {h : Heap} {m c x : ℕ} {name : String} (hq : K.quantized (final K map skipQ (h m)).cls = true)
    (hc : (name, c) ∈ (h m).children) (hn : K.quantizer (h c).cls = false) (hx : Visited K map skipQ h c x) : Visited K map skipQ h m x := by
  induction hx with
  | self => exact .child .self hq hc hn
  | child _ hq' hc' hn' ih => exact .child ih hq' hc' hn'

theorem Visited.trans {K : Classes} {map : Map} {skipQ : Bool} {h : Heap} {a b c : ℕ} (h1 : Visited K map skipQ h a b) (h2 : Visited K map skipQ h b c) :
    Visited K map skipQ h a c := by
  induction h2 with
  | self => exact h1
  | child _ hq hc hn ih => exact .child ih hq hc hn

/-- Only quantizers that are asked for themselves are visited. -/
theorem Visited.nonquantizer {K : Classes} {map : Map} {skipQ : Bool} {h : Heap} {m x : ℕ} (hx : Visited K map skipQ h m x) (hm : K.quantizer (h m).cls = false) :
    K.quantizer (h x).cls = false := by
  cases hx with
  | self => exact hm
  | child _ _ _ hn => exact hn

theorem mem_modules {h : Heap} {rank : ℕ → ℕ} (hr : Ranked h rank) {x : ℕ} : ∀ (f m : ℕ), rank m ≤ f → (x ∈ modules h f m ↔ Reach h m x)
  | 0, m, hf => by
    simp only [modules, List.mem_singleton]
    constructor
    · rintro rfl
      exact .self
    · intro hx
      rcases hx.head with rfl | ⟨c, n, hc, _⟩
      · rfl
      · have := hr _ _ _ hc
        omega
  | f + 1, m, hf => by
    simp only [modules, List.mem_cons, List.mem_flatMap]
    constructor
    · rintro (rfl | ⟨c, hc, hx⟩)
      · exact .self
      · obtain ⟨n, hc⟩ := mem_childrenOf.1 hc
        have := hr _ _ _ hc
        exact Reach.trans (.child .self hc) ((mem_modules hr f c (by omega)).1 hx)
    · intro hx
      rcases hx.head with rfl | ⟨c, n, hc, hx⟩
      · exact Or.inl rfl
      · have := hr _ _ _ hc
        exact Or.inr ⟨c, mem_childrenOf.2 ⟨n, hc⟩, (mem_modules hr f c (by omega)).2 hx⟩

theorem missingClass_iff {K : Classes} {map : Map} {skipQ : Bool} {c : ℕ} : missingClass K map skipQ c = true ↔ Unknown K map skipQ c := by
  unfold missingClass Unknown
  split
  · rename_i h
    simp [h]
  · rename_i h
    cases K.quantizer c <;> cases skipQ <;> cases K.quantized c <;> simp [h]

theorem mem_missing {K : Classes} {map : Map} {skipQ : Bool} {h : Heap} {rank : ℕ → ℕ} (hr : Ranked h rank) {f m c : ℕ} (hf : rank m ≤ f) :
    c ∈ missing K map skipQ f h m ↔ ∃ x, Reach h m x ∧ (h x).cls = c ∧ Unknown K map skipQ c := by
  simp only [missing, List.mem_filter, List.mem_eraseDups, List.mem_map, missingClass_iff]
  constructor
  · rintro ⟨⟨x, hx, rfl⟩, hu⟩
    exact ⟨x, (mem_modules hr f m hf).1 hx, rfl, hu⟩
  · rintro ⟨x, hx, rfl, hu⟩
    exact ⟨⟨x, (mem_modules hr f m hf).2 hx, rfl⟩, hu⟩

theorem final_children (K : Classes) (map : Map) (skipQ : Bool) (x : Mod) : (final K map skipQ x).children = x.children := by
  unfold final
  split
  · rfl
  · split <;> rfl

theorem final_data (K : Classes) (map : Map) (skipQ : Bool) (x : Mod) : (final K map skipQ x).data = x.data := by
  unfold final
  split
  · rfl
  · split <;> rfl

/-- A converted module is of a quantized class; others do not change. -/
theorem final_cases {K : Classes} {map : Map} (hs : Sound K map) (skipQ : Bool) (x : Mod) :
    final K map skipQ x = x ∨ K.quantized (final K map skipQ x).cls = true := by
  unfold final
  split
  · exact Or.inl rfl
  · split
    · rename_i h
      exact Or.inr (hs.conv _ _ h)
    · exact Or.inl rfl

theorem reach_same {h h' : Heap} {m x : ℕ} (hc : ∀ y, Reach h m y → (h' y).children = (h y).children) : Reach h' m x ↔ Reach h m x := by
  constructor
  · intro hx
    induction hx with
    | self => exact .self
    | child _ hm ih =>
      rw [hc _ ih] at hm
      exact .child ih hm
  · intro hx
    induction hx with
    | self => exact .self
    | child hr hm ih =>
      rw [← hc _ hr] at hm
      exact .child ih hm

theorem tree_disjoint {h : Heap} {rank : ℕ → ℕ} (hr : Ranked h rank) {root m c d x : ℕ} {n n' : String} (ht : Tree h root) (hm : Reach h root m)
    (hc : (n, c) ∈ (h m).children) (hd : (n', d) ∈ (h m).children) (hcd : c ≠ d) (h1 : Reach h c x) (h2 : Reach h d x) : False := by
  have hrc : Reach h root c := .child hm hc
  have hrd : Reach h root d := .child hm hd
  have key : Reach h c d ∨ Reach h d c := by
    induction h2 with
    | self => exact Or.inl h1
    | child ha hx ih =>
      rename_i a y ny
      cases h1 with
      | self => exact Or.inr (.child ha hx)
      | child hb hy =>
        have := ht _ _ _ _ _ (hrd.trans ha) (hrc.trans hb) hx hy
        subst this
        exact ih hb
  have contra : ∀ {c d : ℕ} {n n' : String}, (n, c) ∈ (h m).children → (n', d) ∈ (h m).children → c ≠ d → Reach h c d → False := by
    intro c d n n' hc hd hcd hreach
    cases hreach with
    | self => exact hcd rfl
    | child hb hy =>
      have := ht _ _ _ _ _ hm ((Reach.child hm hc).trans hb) hd hy
      subst this
      have := hb.rank_le hr
      have := hr _ _ _ hc
      omega
  rcases key with k | k
  · exact contra hc hd hcd k
  · exact contra hd hc (Ne.symm hcd) k

/-- The hypotheses of the conversion theorem. -/
structure Ready (K : Classes) (map : Map) (skipQ : Bool) (h : Heap) (root : ℕ) : Prop where
  known : ∀ x, Reach h root x → ¬ Unknown K map skipQ (h x).cls
  plain : ∀ x, Visited K map skipQ h root x → (h x).cls ≠ K.base
  root : K.quantizer (h root).cls = false

/-- Part of a model during the conversion. -/
def Mid (K : Classes) (map : Map) (skipQ : Bool) (h0 : Heap) (m : ℕ) (h : Heap) : Prop :=
  ∀ x, Reach h0 m x → h x = h0 x ∨ (skipQ = true ∧ h x = final K map skipQ (h0 x) ∧ K.quantizer (h0 x).cls = false)

theorem Mid.children {K : Classes} {map : Map} {skipQ : Bool} {h0 h : Heap} {m : ℕ} (hm : Mid K map skipQ h0 m h) {x : ℕ} (hx : Reach h0 m x) :
    (h x).children = (h0 x).children := by
  rcases hm x hx with h1 | ⟨_, h1, _⟩
  · rw [h1]
  · rw [h1, final_children]

theorem Mid.below {K : Classes} {map : Map} {skipQ : Bool} {h0 h : Heap} {m c : ℕ} {n : String} (hm : Mid K map skipQ h0 m h) (hc : (n, c) ∈ (h0 m).children) :
    Mid K map skipQ h0 c h := fun x hx => hm x (Reach.trans (.child .self hc) hx)

theorem missing_nil {K : Classes} {map : Map} {skipQ : Bool} {h0 h : Heap} {root m f : ℕ} (hs : Sound K map)
    (hready : Ready K map skipQ h0 root) (hroot : Reach h0 root m) (hm : Mid K map skipQ h0 m h) : missing K map skipQ f h m = [] := by
  have hreach : ∀ g y, Reach h0 m y → ∀ x ∈ modules h g y, Reach h0 m x := by
    intro g
    induction g with
    | zero =>
      intro y hy x hx
      simp only [modules, List.mem_singleton] at hx
      exact hx ▸ hy
    | succ g ih =>
      intro y hy x hx
      simp only [modules, List.mem_cons, List.mem_flatMap] at hx
      rcases hx with rfl | ⟨c, hc, hx⟩
      · exact hy
      · obtain ⟨n, hc⟩ := mem_childrenOf.1 hc
        rw [hm.children hy] at hc
        exact ih c (.child hy hc) x hx
  apply List.eq_nil_iff_forall_not_mem.2
  intro c hc
  simp only [missing, List.mem_filter, List.mem_eraseDups, List.mem_map, missingClass_iff] at hc
  obtain ⟨⟨x, hx, rfl⟩, hu⟩ := hc
  have hx := hreach f m .self x hx
  have hk := hready.known x (hroot.trans hx)
  rcases hm x hx with h1 | ⟨hq, h1, _⟩
  · rw [h1] at hu
    exact hk hu
  · rw [h1] at hu
    rcases final_cases hs skipQ (h0 x) with h2 | h2
    · rw [h2] at hu
      exact hk hu
    · exact hu.2.2.2 ⟨hq, h2⟩

theorem step_ok {K : Classes} {map : Map} {skipQ : Bool} {h0 h : Heap} {root m : ℕ} (hs : Sound K map)
    (hready : Ready K map skipQ h0 root) (hv : Visited K map skipQ h0 root m) (hm : Mid K map skipQ h0 m h) :
    ∃ h1, (if skipQ && K.quantized (h m).cls then (.ok (), h) else convert map m h) = (Except.ok (ε := Err) (), h1) ∧ h1 m = final K map skipQ (h0 m) ∧
      ∀ x, x ≠ m → h1 x = h x := by
  have hnq := hv.nonquantizer hready.root
  have hk := hready.known m hv.reach
  have hb := hready.plain m hv
  have orig : h m = h0 m → ∃ h1, (if skipQ && K.quantized (h m).cls then (.ok (), h) else convert map m h) = (Except.ok (ε := Err) (), h1) ∧
      h1 m = final K map skipQ (h0 m) ∧ ∀ x, x ≠ m → h1 x = h x := by
    intro he
    by_cases hq : skipQ = true ∧ K.quantized (h0 m).cls = true
    · refine ⟨h, ?_, ?_, fun x _ => rfl⟩
      · rw [he]
        simp [hq]
      · rw [he, final, if_pos hq]
    · have hq' : (skipQ && K.quantized (h m).cls) = false := by
        rw [he]
        simpa using hq
      rw [hq']
      simp only [Bool.false_eq_true, if_false, convert, he]
      unfold final
      rw [if_neg hq]
      match hmap : map (h0 m).cls with
      | none => exact absurd ⟨hmap, hb, hnq, hq⟩ hk
      | some .skip => exact ⟨h, rfl, he, fun x _ => rfl⟩
      | some (.to c) =>
        refine ⟨install h m c, rfl, ?_, fun x hx => ?_⟩
        · simp [install, he]
        · simp [install, hx]
  rcases hm m .self with he | ⟨hsq, he, _⟩
  · exact orig he
  · rcases final_cases hs skipQ (h0 m) with h2 | h2
    · exact orig (he.trans h2)
    · refine ⟨h, ?_, he, fun x _ => rfl⟩
      rw [he, h2, hsq]
      rfl

theorem quantize_ok {K : Classes} {map : Map} {skipQ : Bool} {h0 : Heap} {rank : ℕ → ℕ} {root : ℕ} (hs : Sound K map) (hr : Ranked h0 rank)
    (hready : Ready K map skipQ h0 root) (hshape : skipQ = true ∨ Tree h0 root) : ∀ (f m : ℕ) (h : Heap), rank m < f → Visited K map skipQ h0 root m →
    Mid K map skipQ h0 m h → ∃ h', quantize K map skipQ f true m h = (.ok (), h') ∧ (∀ x, Visited K map skipQ h0 m x → h' x = final K map skipQ (h0 x)) ∧
      ∀ x, ¬ Visited K map skipQ h0 m x → h' x = h x
  | 0, m, h, hf, _, _ => absurd hf (Nat.not_lt_zero _)
  | f + 1, m, h, hf, hv, hm => by
    have hmiss := missing_nil (f := f) hs hready hv.reach hm
    obtain ⟨h1, hstep, h1m, h1o⟩ := step_ok hs hready hv hm
    simp only [quantize, hmiss]
    rw [hstep]
    simp only [h1m, Bool.and_true]
    by_cases hq : K.quantized (final K map skipQ (h0 m)).cls = true
    · rw [if_pos hq]
      have hch : childrenOf h1 m = childrenOf h0 m := by simp only [childrenOf, h1m, final_children]
      rw [hch]
      have hlow : ∀ {c x : ℕ} {n : String}, (n, c) ∈ (h0 m).children → Reach h0 c x → x ≠ m := by
        intro c x n hc hx he
        subst he
        have := hx.rank_le hr
        have := hr _ _ _ hc
        omega
      have hmid1 : ∀ c ∈ childrenOf h0 m, Mid K map skipQ h0 c h1 := by
        intro c hc x hx
        obtain ⟨n, hc⟩ := mem_childrenOf.1 hc
        rw [h1o x (hlow hc hx)]
        exact hm.below hc x hx
      have hloop : ∀ (l : List ℕ) (h2 : Heap), (∀ c ∈ l, c ∈ childrenOf h0 m) → l.Nodup → (∀ c ∈ l, Mid K map skipQ h0 c h2) →
          ∃ h', loop K (quantize K map skipQ f true) l h2 = (.ok (), h') ∧
            (∀ x, (∃ c ∈ l, K.quantizer (h0 c).cls = false ∧ Visited K map skipQ h0 c x) → h' x = final K map skipQ (h0 x)) ∧
            ∀ x, (¬ ∃ c ∈ l, K.quantizer (h0 c).cls = false ∧ Visited K map skipQ h0 c x) → h' x = h2 x := by
        intro l
        induction l with
        | nil =>
          intro h2 _ _ _
          exact ⟨h2, rfl, fun x ⟨c, hc, _⟩ => by simp at hc, fun x _ => rfl⟩
        | cons c l ih =>
          intro h2 hl hnd hmid
          have hcm := hl c (by simp)
          obtain ⟨n, hcn⟩ := mem_childrenOf.1 hcm
          have hrc := hr _ _ _ hcn
          have hqz : K.quantizer (h2 c).cls = K.quantizer (h0 c).cls := by
            rcases hmid c (by simp) c .self with he | ⟨_, he, hn⟩
            · rw [he]
            · rw [he, hn]
              rcases final_cases hs skipQ (h0 c) with h3 | h3
              · rw [h3, hn]
              · exact hs.disjoint _ h3
          simp only [loop, hqz]
          by_cases hz : K.quantizer (h0 c).cls = true
          · rw [if_pos hz]
            obtain ⟨h', e, p1, p2⟩ := ih h2 (fun c hc => hl c (by simp [hc])) (List.nodup_cons.1 hnd).2 (fun c hc => hmid c (by simp [hc]))
            refine ⟨h', e, ?_, ?_⟩
            · rintro x ⟨d, hd, hdz, hdx⟩
              rcases List.mem_cons.1 hd with rfl | hd
              · rw [hz] at hdz
                exact absurd hdz (by simp)
              · exact p1 x ⟨d, hd, hdz, hdx⟩
            · intro x hx
              exact p2 x fun ⟨d, hd, hdz, hdx⟩ => hx ⟨d, by simp [hd], hdz, hdx⟩
          · rw [if_neg hz]
            have hz : K.quantizer (h0 c).cls = false := by simpa using hz
            obtain ⟨h3, e3, q1, q2⟩ := quantize_ok hs hr hready hshape f c h2 (by omega) (hv.trans (.child .self hq hcn hz)) (hmid c (by simp))
            rw [e3]
            have hmid3 : ∀ d ∈ l, Mid K map skipQ h0 d h3 := by
              intro d hd x hx
              by_cases hvx : Visited K map skipQ h0 c x
              · rcases hshape with hsq | ht
                · exact Or.inr ⟨hsq, q1 x hvx, hvx.nonquantizer hz⟩
                · obtain ⟨n', hdn⟩ := mem_childrenOf.1 (hl d (by simp [hd]))
                  refine absurd (tree_disjoint hr ht hv.reach hcn hdn ?_ hvx.reach hx) id
                  rintro rfl
                  exact (List.nodup_cons.1 hnd).1 hd
              · rw [q2 x hvx]
                exact hmid d (by simp [hd]) x hx
            obtain ⟨h', e, p1, p2⟩ := ih h3 (fun c hc => hl c (by simp [hc])) (List.nodup_cons.1 hnd).2 hmid3
            refine ⟨h', e, ?_, ?_⟩
            · rintro x hx
              by_cases hl' : ∃ c ∈ l, K.quantizer (h0 c).cls = false ∧ Visited K map skipQ h0 c x
              · exact p1 x hl'
              · rw [p2 x hl']
                obtain ⟨d, hd, hdz, hdx⟩ := hx
                rcases List.mem_cons.1 hd with rfl | hd
                · exact q1 x hdx
                · exact absurd ⟨d, hd, hdz, hdx⟩ hl'
            · intro x hx
              rw [p2 x fun ⟨d, hd, hdz, hdx⟩ => hx ⟨d, by simp [hd], hdz, hdx⟩]
              exact q2 x fun hvx => hx ⟨c, by simp, hz, hvx⟩
      obtain ⟨h', e, p1, p2⟩ := hloop (childrenOf h0 m) h1 (fun _ hc => hc) (nodup_eraseDups _) hmid1
      refine ⟨h', e, ?_, ?_⟩
      · intro x hx
        rcases hx.head with rfl | ⟨_, c, n, hc, hz, hx⟩
        · rw [p2 x, h1m]
          rintro ⟨c, hc, _, hcx⟩
          obtain ⟨n, hc⟩ := mem_childrenOf.1 hc
          exact hlow hc hcx.reach rfl
        · exact p1 x ⟨c, mem_childrenOf.2 ⟨n, hc⟩, hz, hx⟩
      · intro x hx
        rw [p2 x, h1o x]
        · rintro rfl
          exact hx .self
        · rintro ⟨c, hc, hz, hcx⟩
          obtain ⟨n, hc⟩ := mem_childrenOf.1 hc
          exact hx (.cons hq hc hz hcx)
    · rw [if_neg hq]
      refine ⟨h1, rfl, ?_, ?_⟩
      · intro x hx
        rcases hx.head with rfl | ⟨hq', _⟩
        · exact h1m
        · exact absurd hq' hq
      · intro x hx
        apply h1o
        rintro rfl
        exact hx .self

/-- What any call leaves alone. -/
def Keeps (h h' : Heap) : Prop := ∀ x, (h' x).children = (h x).children ∧ (h' x).data = (h x).data

theorem Keeps.trans {a b c : Heap} (h1 : Keeps a b) (h2 : Keeps b c) : Keeps a c := fun x => ⟨(h2 x).1.trans (h1 x).1, (h2 x).2.trans (h1 x).2⟩

theorem keeps_step (K : Classes) (map : Map) (skipQ : Bool) (m : ℕ) (h : Heap) :
    Keeps h (if skipQ && K.quantized (h m).cls then ((.ok () : Except Err Unit), h) else convert map m h).2 := by
  split
  · exact fun _ => ⟨rfl, rfl⟩
  · unfold convert
    split
    · exact fun _ => ⟨rfl, rfl⟩
    · exact fun _ => ⟨rfl, rfl⟩
    · intro x
      simp only [install]
      split
      · rename_i hx
        rw [hx]
        exact ⟨rfl, rfl⟩
      · exact ⟨rfl, rfl⟩

theorem keeps_loop {K : Classes} {f : ℕ → Heap → Except Err Unit × Heap} (hf : ∀ c h, Keeps h (f c h).2) : ∀ (l : List ℕ) (h : Heap), Keeps h (loop K f l h).2
  | [], h => fun _ => ⟨rfl, rfl⟩
  | c :: l, h => by
    simp only [loop]
    split
    · exact keeps_loop hf l h
    · have := hf c h
      generalize f c h = r at this ⊢
      match r, this with
      | (.error e, h1), this => exact this
      | (.ok _, h1), this => exact this.trans (keeps_loop hf l h1)

theorem keeps_quantize (K : Classes) (map : Map) (skipQ : Bool) : ∀ (f : ℕ) (r : Bool) (m : ℕ) (h : Heap), Keeps h (quantize K map skipQ f r m h).2
  | 0, r, m, h => fun _ => ⟨rfl, rfl⟩
  | f + 1, r, m, h => by
    simp only [quantize]
    split
    · exact fun _ => ⟨rfl, rfl⟩
    · have := keeps_step K map skipQ m h
      generalize (if skipQ && K.quantized (h m).cls then ((.ok () : Except Err Unit), h) else convert map m h) = q at this ⊢
      match q, this with
      | (.error e, h1), this => exact this
      | (.ok _, h1), this =>
        simp only
        split
        · exact this.trans (keeps_loop (keeps_quantize K map skipQ f true) _ h1)
        · exact this

/-! ### Properties -/

/-- **C86 (partial).** `quantize_model` converts a model: every module to convert has the class that the map gives for its class and was initialized for
quantization once, modules whose class is to be skipped and all other modules are as before. Children, parameters and everything else stay in place.

Missing: models with instances of `torch.nn.Module` itself, and, if quantized modules are not skipped, models in which a module is in two places. -/
theorem model_converted_partial (K : Classes) (map : Map) (skipQ : Bool) (h : Heap) (rank : ℕ → ℕ) (root f : ℕ) (hs : Sound K map) (hr : Ranked h rank)
    (hf : rank root < f) (hknown : ∀ x, Reach h root x → ¬ Unknown K map skipQ (h x).cls) (hplain : ∀ x, Visited K map skipQ h root x → (h x).cls ≠ K.base)
    (hroot : K.quantizer (h root).cls = false) (hshape : skipQ = true ∨ Tree h root) :
    ∃ h', quantize K map skipQ f true root h = (.ok (), h') ∧ (∀ x, Visited K map skipQ h root x → h' x = final K map skipQ (h x)) ∧
      ∀ x, ¬ Visited K map skipQ h root x → h' x = h x :=
  quantize_ok hs hr ⟨hknown, hplain, hroot⟩ hshape f root h hf .self fun _ _ => Or.inl rfl

/-- **C86.** A model with a module whose class has no conversion is refused before anything is changed, and the error names exactly the classes without one. -/
theorem refused_untouched (K : Classes) (map : Map) (skipQ recursive : Bool) (h : Heap) (rank : ℕ → ℕ) (root f : ℕ) (hr : Ranked h rank) (hf : rank root < f)
    (hu : ∃ x, Reach h root x ∧ Unknown K map skipQ (h x).cls) :
    ∃ l, quantize K map skipQ f recursive root h = (.error (.missing l), h) ∧
      ∀ c, c ∈ l ↔ ∃ x, Reach h root x ∧ (h x).cls = c ∧ Unknown K map skipQ c := by
  obtain ⟨x, hx, hu⟩ := hu
  match f, hf with
  | f + 1, hf =>
    have hm : ∀ c, c ∈ missing K map skipQ f h root ↔ _ := fun c => mem_missing hr (by omega)
    simp only [quantize]
    generalize missing K map skipQ f h root = l at hm
    match l, hm with
    | [], hm => exact absurd ((hm (h x).cls).2 ⟨x, hx, rfl, hu⟩) (by simp)
    | c :: l, hm => exact ⟨c :: l, rfl, hm⟩

/-- **C86.** Whatever the model, the map and the outcome, no module loses or gains a child, and no parameter, buffer or other attribute changes. -/
theorem contents_kept (K : Classes) (map : Map) (skipQ recursive : Bool) (f root : ℕ) (h : Heap) (x : ℕ) :
    ((quantize K map skipQ f recursive root h).2 x).children = (h x).children ∧ ((quantize K map skipQ f recursive root h).2 x).data = (h x).data :=
  keeps_quantize K map skipQ f recursive root h x

/-- **C86.** Without recursion, only the model itself is converted. -/
theorem root_only (K : Classes) (map : Map) (skipQ : Bool) (f root : ℕ) (h : Heap) (x : ℕ) (hx : x ≠ root) :
    (quantize K map skipQ f false root h).2 x = h x := by
  match f with
  | 0 => rfl
  | f + 1 =>
    simp only [quantize, Bool.and_false, Bool.false_eq_true, if_false]
    split
    · rfl
    · have : (if skipQ && K.quantized (h root).cls then ((.ok () : Except Err Unit), h) else convert map root h).2 x = h x := by
        split
        · rfl
        · unfold convert
          split <;> simp [install, hx]
      generalize (if skipQ && K.quantized (h root).cls then ((.ok () : Except Err Unit), h) else convert map root h) = q at this ⊢
      match q, this with
      | (.error e, h1), this => exact this
      | (.ok _, h1), this => exact this

/-- **C86.** Converting a converted model again, with quantized modules skipped, changes nothing. -/
theorem second_conversion (K : Classes) (map : Map) (h h' : Heap) (rank : ℕ → ℕ) (root f : ℕ) (hs : Sound K map) (hr : Ranked h rank) (hf : rank root < f)
    (hknown : ∀ x, Reach h root x → ¬ Unknown K map true (h x).cls) (hplain : ∀ x, Visited K map true h root x → (h x).cls ≠ K.base)
    (hbase : K.quantized K.base = false) (hroot : K.quantizer (h root).cls = false) (h1 : quantize K map true f true root h = (.ok (), h')) :
    quantize K map true f true root h' = (.ok (), h') := by
  obtain ⟨h2, e, p1, p2⟩ := model_converted_partial K map true h rank root f hs hr hf hknown hplain hroot (Or.inl rfl)
  rw [h1] at e
  obtain rfl : h' = h2 := (Prod.mk.injEq .. ▸ e : _ ∧ _).2
  have hk : Keeps h h' := by
    have := keeps_quantize K map true f true root h
    rw [h1] at this
    exact this
  -- every module is as it was or of a quantized class
  have hcls : ∀ x, h' x = h x ∨ (K.quantized (h' x).cls = true ∧ K.quantizer (h x).cls = false) := by
    intro x
    by_cases hv : Visited K map true h root x
    · rw [p1 x hv]
      rcases final_cases hs true (h x) with h3 | h3
      · exact Or.inl h3
      · exact Or.inr ⟨h3, hv.nonquantizer hroot⟩
    · exact Or.inl (p2 x hv)
  have hreach : ∀ x, Reach h' root x ↔ Reach h root x := fun x => reach_same fun y _ => (hk y).1
  have hvis : ∀ x, Visited K map true h' root x → Visited K map true h root x := by
    intro x hx
    induction hx with
    | self => exact .self
    | child hv hq hc hn ih =>
      rename_i a c name
      rw [(hk a).1] at hc
      refine .child ih ?_ hc ?_
      · rw [← p1 a ih]
        rcases hcls a with h3 | h3
        · have : final K map true (h a) = h a := (p1 a ih).symm.trans h3
          rw [h3, this] at hq
          rwa [h3]
        · exact h3.1
      · rcases hcls c with h3 | h3
        · rw [← h3]
          exact hn
        · exact h3.2
  have hfin : ∀ x, Visited K map true h root x → final K map true (h' x) = h' x := by
    intro x hv
    rcases hcls x with h3 | h3
    · rw [h3, ← p1 x hv, h3]
    · unfold final
      rw [if_pos ⟨rfl, h3.1⟩]
  have hr' : Ranked h' rank := by
    intro m c n hc
    rw [(hk m).1] at hc
    exact hr m c n hc
  obtain ⟨h3, e3, q1, q2⟩ := model_converted_partial K map true h' rank root f hs hr' hf
    (by
      intro x hx hu
      rcases hcls x with h4 | h4
      · rw [h4] at hu
        exact hknown x ((hreach x).1 hx) hu
      · exact hu.2.2.2 ⟨rfl, h4.1⟩)
    (by
      intro x hx
      rcases hcls x with h4 | h4
      · rw [h4]
        exact hplain x (hvis x hx)
      · intro he
        rw [he, hbase] at h4
        exact absurd h4.1 (by simp))
    (by
      rcases hcls root with h4 | h4
      · rw [h4]
        exact hroot
      · exact hs.disjoint _ h4.1) (Or.inl rfl)
  rw [e3]
  congr 1
  funext x
  by_cases hv : Visited K map true h' root x
  · rw [q1 x hv, hfin x (hvis x hv)]
  · exact q2 x hv

/-- **C86 (partial).** With surrogates for the classes without conversion, conversion succeeds and leaves no such class.

Missing: as for `model_converted_partial`; quantized modules must be skipped. -/
theorem surrogates_suffice_partial (K : Classes) (glob : Map) (surr : ℕ → ℕ) (h : Heap) (rank : ℕ → ℕ) (root f : ℕ) (hs : Sound K glob)
    (hsurr : ∀ c, K.quantized (surr c) = true) (hr : Ranked h rank) (hf : rank root < f)
    (hplain : ∀ x, Reach h root x → (h x).cls ≠ K.base) (hroot : K.quantizer (h root).cls = false) :
    ∃ h', quantize K (merged false glob (surrogates K glob surr (f - 1) h root)) true f true root h = (.ok (), h') ∧
      ∀ x, Reach h root x → Unknown K glob true (h x).cls → Visited K (merged false glob (surrogates K glob surr (f - 1) h root)) true h root x →
        h' x = { h x with cls := surr (h x).cls, inits := (h x).inits + 1 } := by
  have hmem : ∀ c, c ∈ missing K glob true (f - 1) h root ↔ _ := fun c => mem_missing hr (by omega)
  have hmap : ∀ c, merged false glob (surrogates K glob surr (f - 1) h root) c = if c ∈ missing K glob true (f - 1) h root then some (.to (surr c)) else glob c := by
    intro c
    simp only [merged, surrogates]
    split
    · rename_i h1
      split at h1
      · rename_i h2
        rw [if_pos h2, h1]
      · simp at h1
    · rename_i h1
      split at h1
      · simp at h1
      · rename_i h2
        simp [h2]
  have hs' : Sound K (merged false glob (surrogates K glob surr (f - 1) h root)) := by
    refine ⟨hs.disjoint, fun c c' hc => ?_⟩
    rw [hmap] at hc
    split at hc
    · simp only [Option.some.injEq, Conv.to.injEq] at hc
      rw [← hc]
      exact hsurr c
    · exact hs.conv c c' hc
  obtain ⟨h', e, p1, _⟩ := model_converted_partial K _ true h rank root f hs' hr hf
    (by
      rintro x hx ⟨hn, hb, hz, hq⟩
      rw [hmap] at hn
      split at hn
      · simp at hn
      · rename_i h2
        exact h2 ((hmem _).2 ⟨x, hx, rfl, hn, hb, hz, hq⟩))
    (fun x hx => hplain x hx.reach) hroot (Or.inl rfl)
  refine ⟨h', e, fun x hx hu hv => ?_⟩
  rw [p1 x hv]
  unfold final
  rw [if_neg hu.2.2.2, hmap, if_pos ((hmem _).2 ⟨x, hx, rfl, hu⟩)]

/-- **C86.** The conversion found by itself for a class is the allowed quantized class that was defined last. -/
theorem latest_class (allowed : ℕ → Bool) (reg : List (ℕ × ℕ)) (c q : ℕ) :
    moduleMap allowed reg c = some q ↔
      ∃ l₁ l₂, reg = l₁ ++ (c, q) :: l₂ ∧ allowed q = true ∧ ∀ q', (c, q') ∈ l₂ → allowed q' = false := by
  unfold moduleMap
  induction reg with
  | nil => simp
  | cons p reg ih =>
    obtain ⟨a, b⟩ := p
    have hnone : (((reg.filter fun p => p.1 == c).map (·.2)).filter allowed).getLast? = none ↔ ∀ q', (c, q') ∈ reg → allowed q' = false := by
      rw [List.getLast?_eq_none_iff]
      simp only [List.filter_eq_nil_iff, List.mem_map, List.mem_filter, beq_iff_eq, Prod.exists, forall_exists_index, and_imp]
      constructor
      · intro h q' hq
        simpa using h q' c q' hq rfl rfl
      · rintro h q' a b hab rfl rfl
        simpa using h b hab
    have hcons : (((((a, b) :: reg).filter fun p => p.1 == c).map (·.2)).filter allowed).getLast? =
        match (((reg.filter fun p => p.1 == c).map (·.2)).filter allowed).getLast? with
        | some q => some q
        | none => if a = c ∧ allowed b = true then some b else none := by
      by_cases h : a = c ∧ allowed b = true
      · obtain ⟨rfl, hb⟩ := h
        simp only [List.filter_cons, beq_self_eq_true, if_true, List.map_cons, hb, List.getLast?_cons, and_self]
        cases ((List.map (fun x => x.2) (List.filter (fun p => p.1 == a) reg)).filter allowed).getLast? <;> rfl
      · have : ((((a, b) :: reg).filter fun p => p.1 == c).map (·.2)).filter allowed = ((reg.filter fun p => p.1 == c).map (·.2)).filter allowed := by
          by_cases ha : a = c
          · have hb : allowed b = false := by
              cases hb : allowed b
              · rfl
              · exact absurd ⟨ha, hb⟩ h
            simp [ha, hb]
          · simp [ha]
        rw [this, if_neg h]
        cases (((reg.filter fun p => p.1 == c).map (·.2)).filter allowed).getLast? <;> rfl
    rw [hcons]
    constructor
    · intro h
      generalize hr : (((reg.filter fun p => p.1 == c).map (·.2)).filter allowed).getLast? = r at h ih
      cases r with
      | some q' =>
        obtain ⟨l₁, l₂, e, h1, h2⟩ := ih.1 h
        exact ⟨(a, b) :: l₁, l₂, by rw [e]; rfl, h1, h2⟩
      | none =>
        simp only at h
        split at h
        · rename_i hab
          obtain ⟨rfl, hb⟩ := hab
          simp only [Option.some.injEq] at h
          subst h
          exact ⟨[], reg, rfl, hb, hnone.1 hr⟩
        · simp at h
    · rintro ⟨l₁, l₂, e, h1, h2⟩
      cases l₁ with
      | nil =>
        simp only [List.nil_append, List.cons.injEq, Prod.mk.injEq] at e
        obtain ⟨⟨rfl, rfl⟩, rfl⟩ := e
        rw [hnone.2 h2]
        simp [h1]
      | cons p l₁ =>
        simp only [List.cons_append, List.cons.injEq] at e
        obtain ⟨rfl, rfl⟩ := e
        have := ih.2 ⟨l₁, l₂, rfl, h1, h2⟩
        simp only [this]

/-- **C86.** Extra conversions have precedence over the registered ones, which are used for the other classes unless the global map is ignored: then only the
extra conversions are. -/
theorem extra_first (glob extra : Map) (c : ℕ) :
    (∀ t, extra c = some t → ∀ ign, merged ign glob extra c = some t) ∧
    (extra c = none → merged false glob extra c = glob c ∧ merged true glob extra c = none) := by
  unfold merged
  refine ⟨fun t h ign => by rw [h], fun h => ?_⟩
  rw [h]
  exact ⟨rfl, rfl⟩

/-! ### Deviations -/

/-- Class 0 is `torch.nn.Module`, 1 a container, 2 a layer, 3 a quantizer, 11 and 12 the quantized container and layer. -/
def toyClasses : Classes where
  quantizer c := c == 3
  quantized c := decide (10 ≤ c)
  base := 0

def toyMap : Map := fun c => if c = 1 then some (.to 11) else if c = 2 then some (.to 12) else none

def heapOf (l : List (ℕ × List ℕ)) : Heap := fun m =>
  match l[m]? with
  | some (c, l) => ⟨c, l.map fun x => (toString x, x), m, 0⟩
  | none => ⟨0, [], 0, 0⟩

/-- Class and number of initializations of the first modules. -/
def view (n : ℕ) (r : Except Err Unit × Heap) : Option Err × List (ℕ × ℕ) :=
  ((match r.1 with | .error e => some e | .ok _ => none), (List.range n).map fun x => ((r.2 x).cls, (r.2 x).inits))

/-- **C86, deviation.** A layer that is in two containers: the second container is not converted, since the layer in it is already, and the model is left half
converted. All classes have a conversion. -/
theorem shared_module_refused :
    view 4 (quantize toyClasses toyMap false 9 true 0 (heapOf [(1, [1, 2]), (1, [3]), (1, [3]), (2, [])])) =
      (some (.missing [12]), [(11, 1), (11, 1), (1, 0), (12, 1)]) := by decide +kernel

/-- **C86, deviation.** An instance of `torch.nn.Module` itself passes the check, but has no conversion: the model is left half converted. -/
theorem base_module_passes_check :
    view 3 (quantize toyClasses toyMap false 9 true 0 (heapOf [(1, [1, 2]), (2, []), (0, [])])) =
      (some (.unsupported 0), [(11, 1), (12, 1), (0, 0)]) := by decide +kernel

/-- **C86, deviation.** Surrogates do not suffice for a model with a quantized module, unless quantized modules are skipped; they are documented to always do. -/
theorem surrogates_insufficient :
    view 2 (quantize toyClasses (merged false toyMap (surrogates toyClasses toyMap (· + 10) 8 (heapOf [(5, [1]), (12, [])]) 0)) false 9 true 0
      (heapOf [(5, [1]), (12, [])])) = (some (.missing [12]), [(5, 0), (12, 0)]) := by decide +kernel

/-- **C86, deviation.** A module that is skipped is searched nevertheless: a class without conversion in it, which is not to be converted, refuses the model. -/
theorem skipped_module_checked :
    view 3 (quantize toyClasses (fun c => if c = 5 then some .skip else toyMap c) false 9 true 0 (heapOf [(1, [1]), (5, [2]), (6, [])])) =
      (some (.missing [6]), [(1, 0), (5, 0), (6, 0)]) := by decide +kernel

/-! ### Concrete cases -/

/-- A container with a layer, a skipped module with a layer, and a quantizer. -/
def toyModel : Heap := heapOf [(1, [1, 2, 3]), (2, []), (5, [4]), (3, []), (2, [])]

def toySkip : Map := fun c => if c = 5 then some .skip else toyMap c

example : view 5 (quantize toyClasses toySkip false 9 true 0 toyModel) = (none, [(11, 1), (12, 1), (5, 0), (3, 0), (2, 0)]) := by decide +kernel

theorem toy_ranked : Ranked toyModel (5 - ·) := by
  intro m c n hc
  match m with
  | 0 => simp [toyModel, heapOf] at hc; simp only; omega
  | 1 => simp [toyModel, heapOf] at hc
  | 2 => simp [toyModel, heapOf] at hc; simp only; omega
  | 3 => simp [toyModel, heapOf] at hc
  | 4 => simp [toyModel, heapOf] at hc
  | m + 5 => simp [toyModel, heapOf] at hc

theorem toy_sound : Sound toyClasses toySkip where
  disjoint := by
    intro c hc
    simp [toyClasses] at hc ⊢
    omega
  conv := by
    intro c c' hc
    simp only [toySkip, toyMap, toyClasses] at hc ⊢
    split at hc
    · simp at hc
    · split at hc
      · simp at hc; simp [← hc]
      · split at hc
        · simp at hc; simp [← hc]
        · simp at hc

theorem toy_reach {x : ℕ} (h : Reach toyModel 0 x) : x ∈ [0, 1, 2, 3, 4] := by
  induction h with
  | self => simp
  | child _ hc ih =>
    simp only [List.mem_cons, List.not_mem_nil, or_false] at ih
    rcases ih with rfl | rfl | rfl | rfl | rfl <;> simp [toyModel, heapOf] at hc ⊢ <;> omega

/-- The hypotheses of `model_converted_partial` hold. -/
example : (∀ x, Reach toyModel 0 x → ¬ Unknown toyClasses toySkip false (toyModel x).cls) ∧
    (∀ x, Visited toyClasses toySkip false toyModel 0 x → (toyModel x).cls ≠ toyClasses.base) ∧ Tree toyModel 0 := by
  refine ⟨?_, ?_, ?_⟩
  · intro x hx
    have := toy_reach hx
    simp only [List.mem_cons, List.not_mem_nil, or_false] at this
    rcases this with rfl | rfl | rfl | rfl | rfl <;> simp [toyModel, heapOf, Unknown, toySkip, toyMap, toyClasses]
  · intro x hx
    have := toy_reach hx.reach
    simp only [List.mem_cons, List.not_mem_nil, or_false] at this
    rcases this with rfl | rfl | rfl | rfl | rfl <;> simp [toyModel, heapOf, toyClasses]
  · intro a b c n n' ha hb hca hcb
    have ha := toy_reach ha
    have hb := toy_reach hb
    simp only [List.mem_cons, List.not_mem_nil, or_false] at ha hb
    rcases ha with rfl | rfl | rfl | rfl | rfl <;> rcases hb with rfl | rfl | rfl | rfl | rfl <;> simp [toyModel, heapOf] at hca hcb ⊢ <;> omega

/-- A layer in two containers is converted once if quantized modules are skipped, and a class without conversion gets a surrogate. -/
example : view 4 (quantize toyClasses (merged false toyMap (surrogates toyClasses toyMap (· + 10) 8 (heapOf [(7, [1, 2]), (1, [3]), (1, [3]), (2, [])]) 0)) true 9 true 0
    (heapOf [(7, [1, 2]), (1, [3]), (1, [3]), (2, [])])) = (none, [(17, 1), (11, 1), (11, 1), (12, 1)]) := by decide +kernel

example : moduleMap (· != 8) [(1, 5), (2, 6), (1, 7), (1, 8)] 1 = some 7 := by decide +kernel

end FF.Convert
