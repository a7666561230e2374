import Verif.Autoquant.Dotted

/-!
# Resolving relative imports

Models `_autoquant/pysource/scope.py: _resolve_relative_module_name`.
-/

namespace FF.Imports

open FF.Dotted

/-! ## Model -/

/-- `s.rsplit(".", 1)[0]` for a string that contains a dot: all before the last dot. -/
def beforeLastDot (s : List Char) : List Char := ((s.reverse.dropWhile (· != '.')).drop 1).reverse

/-- `scope.py:331-353` `_resolve_relative_module_name`. -/
def resolve (root : List Char) (levels : ℕ) (name : Option (List Char)) : List Char :=
  let name := name.getD []
  if levels = 0 then name
  else
    let packageRoot := if '.' ∈ root then beforeLastDot root else root
    let atoms := split packageRoot
    let up := levels - 1
    let resolved := if up > 0 then join (atoms.take (atoms.length - up)) else packageRoot
    let resolved := if resolved = [] then packageRoot else resolved
    if name = [] then resolved else resolved ++ '.' :: name

/-! ## Specification: Python's import system -/

/-- A dotted name in parts: not empty, no part empty or with a dot in it. -/
def Dotted (ps : List (List Char)) : Prop := ps ≠ [] ∧ ∀ p ∈ ps, p ≠ [] ∧ '.' ∉ p

/-- The package (`__package__`) of a module: the module itself for `__init__.py`, otherwise all but the last part. -/
def package (isInit : Bool) (module : List (List Char)) : List (List Char) := if isInit then module else module.dropLast

/-- `importlib`: in package `pkg`, `from <levels dots><name> import ...` imports from `target`. One dot is the package itself, each
further dot its parent; going above the top-level package is an error. -/
def PyImport (pkg : List (List Char)) (levels : ℕ) (name target : List (List Char)) : Prop :=
  1 ≤ levels ∧ levels ≤ pkg.length ∧ target = pkg.take (pkg.length - (levels - 1)) ++ name

/-! ## Lemmas -/

theorem beforeLastDot_join {init : List (List Char)} {last : List Char} (hi : init ≠ []) (hl : '.' ∉ last) :
    beforeLastDot (join (init ++ [last])) = join init := by
  rw [join_append hi (List.cons_ne_nil _ _), join]
  unfold beforeLastDot
  rw [List.reverse_append, List.reverse_cons, List.append_assoc, List.dropWhile_append_of_pos]
  · simp
  · intro c hc
    rw [List.mem_reverse] at hc
    simp only [bne_iff_ne, ne_eq]
    rintro rfl
    exact hl hc

theorem join_ne_nil {ps : List (List Char)} (h : Dotted ps) : join ps ≠ [] := by
  obtain ⟨h1, h2⟩ := h
  cases ps with
  | nil => exact absurd rfl h1
  | cons p ps =>
    cases ps with
    | nil => exact (h2 p List.mem_cons_self).1
    | cons q ps => simp [join]

/-! ## Properties -/

/-- The name after the dots, as written in the import. -/
def written (name : List (List Char)) : Option (List Char) := if name = [] then none else some (join name)

/-- **C61 (partial).** In a module that is not an `__init__.py`, a relative import that Python accepts is resolved to the module that
Python imports. -/
theorem resolves_like_python_partial (module name target : List (List Char)) (levels : ℕ) (hm : Dotted module)
    (hn : name = [] ∨ Dotted name) (h : PyImport (package false module) levels name target) :
    resolve (join module) levels (written name) = join target := by
  obtain ⟨h1, h2, rfl⟩ := h
  simp only [package, Bool.false_eq_true, if_false] at h2 ⊢
  obtain ⟨init, last, rfl⟩ : ∃ init last, module = init ++ [last] :=
    ⟨module.dropLast, module.getLast hm.1, (List.dropLast_append_getLast hm.1).symm⟩
  rw [List.dropLast_concat] at h2 ⊢
  have hi : init ≠ [] := by
    rintro rfl
    simp at h2
    omega
  have hnd : ∀ p ∈ init ++ [last], '.' ∉ p := fun p hp => (hm.2 p hp).2
  have hlast : '.' ∉ last := hnd last (by simp)
  have hdot : '.' ∈ join (init ++ [last]) := by
    rw [mem_join_iff _ hnd]
    have := List.length_pos_of_ne_nil hi
    simp
    omega
  have hinit : Dotted init := ⟨hi, fun p hp => hm.2 p (List.mem_append_left _ hp)⟩
  have hsplit : split (join init) = init := split_join hi (fun p hp => hnd p (List.mem_append_left _ hp))
  unfold resolve
  dsimp only
  rw [if_neg (by omega : ¬ levels = 0), if_pos hdot, beforeLastDot_join hi hlast, hsplit]
  have htake : (init.take (init.length - (levels - 1))) ≠ [] := by
    rw [ne_eq, List.take_eq_nil_iff, not_or]
    exact ⟨by omega, hi⟩
  have hbase : (if levels - 1 > 0 then join (init.take (init.length - (levels - 1))) else join init)
      = join (init.take (init.length - (levels - 1))) := by
    split
    · rfl
    · next hlev =>
      have : levels - 1 = 0 := by omega
      rw [this, Nat.sub_zero, List.take_length]
  have hdt : Dotted (init.take (init.length - (levels - 1))) := ⟨htake, fun p hp => hinit.2 p (List.mem_of_mem_take hp)⟩
  rw [hbase, if_neg (join_ne_nil hdt)]
  unfold written
  rcases hn with rfl | hn
  · simp
  · rw [if_neg hn.1]
    dsimp only [Option.getD_some]
    rw [if_neg (join_ne_nil hn), join_append htake hn.1]

/-- **C61.** Absolute imports are left as they are. -/
theorem absolute_unchanged (root name : List Char) : resolve root 0 (some name) = name := by
  simp [resolve]

/-- **C61, deviation.** An import in the `__init__.py` of a package `a.b` is resolved in the parent package: `from .c import d` there
imports from `a.b.c`, but is resolved to `a.c`. -/
theorem package_resolved_in_parent (a b c : List Char) (ha : Dotted [a, b]) (hc : Dotted [c]) :
    PyImport (package true [a, b]) 1 [c] [a, b, c] ∧ resolve (join [a, b]) 1 (written [c]) = join [a, c]
      ∧ join [a, c] ≠ join [a, b, c] := by
  refine ⟨⟨Nat.le_refl _, by simp [package], by simp [package]⟩, ?_, ?_⟩
  · apply resolves_like_python_partial [a, b] [c] [a, c] 1 ha (.inr hc)
    exact ⟨Nat.le_refl _, by simp [package], by simp [package]⟩
  · intro h
    have := join_inj (ps := [a, c]) (qs := [a, b, c]) nofun nofun
      (by
        intro p hp
        simp only [List.mem_cons, List.not_mem_nil, or_false] at hp
        rcases hp with rfl | rfl
        · exact (ha.2 _ (by simp)).2
        · exact (hc.2 _ (by simp)).2)
      (by
        intro p hp
        simp only [List.mem_cons, List.not_mem_nil, or_false] at hp
        rcases hp with rfl | rfl | rfl
        · exact (ha.2 _ (by simp)).2
        · exact (ha.2 _ (by simp)).2
        · exact (hc.2 _ (by simp)).2) h
    simp at this

/-- **C61, deviation.** An import that climbs above the top-level package, which Python rejects, is resolved as if it had one dot. -/
theorem beyond_top_level_accepted (pkg : List (List Char)) (m : List Char) (name : List (List Char)) (levels : ℕ)
    (hm : Dotted (pkg ++ [m])) (hp : pkg ≠ []) (hn : name = [] ∨ Dotted name) (hl : pkg.length < levels) :
    (∀ target, ¬ PyImport (package false (pkg ++ [m])) levels name target)
    ∧ resolve (join (pkg ++ [m])) levels (written name) = join (pkg ++ name) := by
  constructor
  · rintro target ⟨-, h, -⟩
    simp only [package, Bool.false_eq_true, if_false, List.dropLast_concat] at h
    omega
  · have h1 := resolves_like_python_partial (pkg ++ [m]) name (pkg ++ name) 1 hm hn
      ⟨Nat.le_refl _, by simp only [package, Bool.false_eq_true, if_false, List.dropLast_concat]; exact List.length_pos_of_ne_nil hp,
        by simp [package]⟩
    rw [← h1]
    have hnd : ∀ p ∈ pkg ++ [m], '.' ∉ p := fun p hp => (hm.2 p hp).2
    have hdot : '.' ∈ join (pkg ++ [m]) := by
      rw [mem_join_iff _ hnd]
      have := List.length_pos_of_ne_nil hp
      simp
      omega
    have hlen := List.length_pos_of_ne_nil hp
    unfold resolve
    dsimp only
    rw [if_neg (by omega : ¬ levels = 0), if_neg (by omega : ¬ 1 = 0), if_pos hdot, beforeLastDot_join hp (hnd m (by simp)),
      split_join hp (fun p hp => hnd p (List.mem_append_left _ hp)), if_pos (by omega : levels - 1 > 0)]
    have : pkg.length - (levels - 1) = 0 := by omega
    simp [this, join]

/-! ## Concrete cases -/

example : resolve "diffusers.models.attention".toList 1 (some "utils.fn".toList) = "diffusers.models.utils.fn".toList := by decide +kernel
example : resolve "diffusers.models.attention".toList 2 none = "diffusers".toList := by decide +kernel
example : PyImport (package false ["diffusers".toList, "models".toList, "attention".toList]) 2 ["x".toList] ["diffusers".toList, "x".toList] :=
  ⟨by decide, by decide, rfl⟩
example : Dotted ["diffusers".toList, "models".toList] := by
  refine ⟨nofun, ?_⟩
  decide +kernel

end FF.Imports
