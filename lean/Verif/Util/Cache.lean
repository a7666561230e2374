/-!
# Asset cache paths

Models `get_assets_path` (`cache.py:8-46`) on a POSIX system. Strings are lists of characters; a path is the list of its parts.
-/

namespace FF.Cache

/-! ## Model -/

/-- A string. -/
abbrev Str := List Char

/-- The parts of an absolute path. -/
abbrev Path := List Str

/-- The process environment as far as it matters: the two environment variables and the home directory. -/
structure Env where
  ffCache : Option Str
  xdgCacheHome : Option Str
  home : Path

/-- `s.replace(c, "--")` for a single character (`cache.py:39-40`). -/
def replace (c : Char) (s : Str) : Str := s.flatMap fun d => if d = c then ['-', '-'] else [d]

/-- The replaced characters, in the order of `cache.py:38`. -/
def special : List Char := [' ', '/', '\\', ':', '<', '>', '|']

/-- The loop `cache.py:38-40` for one of the two names. -/
def sanitize (s : Str) : Str := special.foldl (fun s c => replace c s) s

/-- `path / name` for a name without slash: `pathlib` drops empty parts and `.`. -/
def child (p : Path) (name : Str) : Path := if name = [] ∨ name = ['.'] then p else p ++ [name]

/-- `cache.py:30-36`: the cache directory. `parse` is `Path(text)`, and `resolve` is `expanduser().resolve()`. -/
def cacheDir (parse : Str → Path) (resolve : Path → Path) (env : Env) (arg : Option Str) : Path :=
  match arg with
  | some d => resolve (parse d)
  | none =>
    match env.ffCache with
    | some d => resolve (parse d)
    | none =>
      match env.xdgCacheHome with
      | some d => resolve (child (parse d) "fastforward".toList)
      | none => resolve (child (child env.home ".cache".toList) "fastforward".toList)

/-- `ValueError`. -/
inductive CErr where
  | valueError
  deriving DecidableEq, Repr

/-- `cache.py:38-46`: the path of an asset below a cache directory; `isFile` tells which paths are existing files. -/
def assetsPath (isFile : Path → Bool) (dir : Path) (ns tag : Str) : Except CErr Path :=
  let path := child (child dir (sanitize ns)) (sanitize tag)
  if isFile path then .error .valueError else .ok path

/-! ## Specification -/

/-- A name of one directory: not empty, not `.` or `..`, and without the characters that are replaced. -/
def Plain (s : Str) : Prop := s ≠ [] ∧ s ≠ ['.'] ∧ s ≠ ['.', '.'] ∧ ∀ c ∈ s, c ∉ [' ', '/', '\\', ':', '<', '>', '|']

/-! ## Lemmas -/

theorem replace_eq_self {c : Char} {s : Str} (h : c ∉ s) : replace c s = s := by
  induction s with
  | nil => rfl
  | cons d s ih =>
    unfold replace at ih ⊢
    rw [List.flatMap_cons, if_neg (fun e => h (by rw [e]; simp)), ih (fun hc => h (by simp [hc]))]
    rfl

theorem mem_replace {c d : Char} {s : Str} (h : d ∈ replace c s) : (d ∈ s ∧ d ≠ c) ∨ d = '-' := by
  unfold replace at h
  obtain ⟨e, he, hd⟩ := List.mem_flatMap.1 h
  by_cases hc : e = c
  · rw [if_pos hc] at hd
    simp only [List.mem_cons, List.not_mem_nil, or_false, or_self] at hd
    exact .inr hd
  · rw [if_neg hc] at hd
    simp only [List.mem_cons, List.not_mem_nil, or_false] at hd
    exact .inl ⟨hd ▸ he, hd ▸ hc⟩

theorem fold_mem (cs : List Char) (s : Str) (d : Char) (h : d ∈ cs.foldl (fun s c => replace c s) s) : (d ∈ s ∧ d ∉ cs) ∨ d = '-' := by
  induction cs generalizing s with
  | nil => exact .inl ⟨h, by simp⟩
  | cons c cs ih =>
    rcases ih _ h with ⟨h1, h2⟩ | h1
    · rcases mem_replace h1 with ⟨h3, h4⟩ | h3
      · exact .inl ⟨h3, by simp [h4, h2]⟩
      · exact .inr h3
    · exact .inr h1

theorem fold_id (cs : List Char) (s : Str) (h : ∀ c ∈ s, c ∉ cs) : cs.foldl (fun s c => replace c s) s = s := by
  induction cs with
  | nil => rfl
  | cons c cs ih =>
    rw [List.foldl_cons, replace_eq_self (fun hc => h c hc (by simp))]
    exact ih (fun d hd hc => h d hd (by simp [hc]))

theorem sanitize_plain {s : Str} (h : Plain s) : sanitize s = s := fold_id _ _ h.2.2.2

theorem child_plain {s : Str} (h : Plain s) (p : Path) : child p s = p ++ [s] := by
  unfold child
  rw [if_neg (fun e => e.elim h.1 h.2.1)]

/-! ## Properties -/

/-- **C65.** The cache directory is the argument if there is one, otherwise `FF_CACHE`, otherwise `fastforward` in `XDG_CACHE_HOME`,
otherwise `.cache/fastforward` in the home directory. -/
theorem directory_precedence (parse : Str → Path) (resolve : Path → Path) (env : Env) :
    (∀ d, cacheDir parse resolve env (some d) = resolve (parse d))
    ∧ (∀ d, env.ffCache = some d → cacheDir parse resolve env none = resolve (parse d))
    ∧ (∀ d, env.ffCache = none → env.xdgCacheHome = some d →
        cacheDir parse resolve env none = resolve (parse d ++ ["fastforward".toList]))
    ∧ (env.ffCache = none → env.xdgCacheHome = none →
        cacheDir parse resolve env none = resolve (env.home ++ [".cache".toList, "fastforward".toList])) := by
  refine ⟨fun _ => rfl, ?_, ?_, ?_⟩
  · intro d h
    simp only [cacheDir, h]
  · intro d h1 h2
    simp only [cacheDir, h1, h2]
    rfl
  · intro h1 h2
    simp only [cacheDir, h1, h2]
    have : ∀ p : Path, child (child p ".cache".toList) "fastforward".toList = p ++ [".cache".toList, "fastforward".toList] := by
      intro p
      unfold child
      rw [if_neg (by decide), if_neg (by decide), List.append_assoc]
      rfl
    rw [this]

/-- **C65.** The path is the cache directory followed by at most two parts, and none of them contains a replaced character (in
particular no separator). -/
theorem path_shape (isFile : Path → Bool) (dir : Path) (ns tag : Str) (p : Path) (h : assetsPath isFile dir ns tag = .ok p) :
    ∃ parts, p = dir ++ parts ∧ parts.length ≤ 2 ∧ (∀ s ∈ parts, ∀ c ∈ s, c ∉ [' ', '/', '\\', ':', '<', '>', '|']) ∧ isFile p = false := by
  unfold assetsPath at h
  dsimp only at h
  by_cases hf : isFile (child (child dir (sanitize ns)) (sanitize tag)) = true
  · rw [if_pos hf] at h
    cases h
  · rw [if_neg hf] at h
    have hclean : ∀ s : Str, ∀ c ∈ sanitize s, c ∉ [' ', '/', '\\', ':', '<', '>', '|'] := by
      intro s c hc
      rcases fold_mem _ _ _ hc with h1 | h1
      · exact h1.2
      · rw [h1]; decide
    have hp := Except.ok.inj h
    subst hp
    have hff : isFile (child (child dir (sanitize ns)) (sanitize tag)) = false := by simpa using hf
    unfold child at hff ⊢
    by_cases h1 : sanitize ns = [] ∨ sanitize ns = ['.']
    · simp only [if_pos h1] at hff ⊢
      by_cases h2 : sanitize tag = [] ∨ sanitize tag = ['.']
      · simp only [if_pos h2] at hff ⊢
        exact ⟨[], by simp, by simp, by simp, hff⟩
      · simp only [if_neg h2] at hff ⊢
        exact ⟨[sanitize tag], rfl, by simp, by simpa using hclean tag, hff⟩
    · simp only [if_neg h1] at hff ⊢
      by_cases h2 : sanitize tag = [] ∨ sanitize tag = ['.']
      · simp only [if_pos h2] at hff ⊢
        exact ⟨[sanitize ns], rfl, by simp, by simpa using hclean ns, hff⟩
      · simp only [if_neg h2] at hff ⊢
        refine ⟨[sanitize ns, sanitize tag], by rw [List.append_assoc]; rfl, by simp, ?_, hff⟩
        intro s hs
        simp only [List.mem_cons, List.not_mem_nil, or_false] at hs
        rcases hs with rfl | rfl
        · exact hclean ns
        · exact hclean tag

/-- **C65 (partial).** For namespaces and tags that are plain directory names, the path is `dir/namespace/tag`, which is below the cache
directory, and two assets have the same path only if namespace and tag are the same. Missing: names with replaced characters, empty names,
`.` and `..` (see the deviations). -/
theorem plain_names_distinct_partial (isFile : Path → Bool) (dir : Path) (ns tag ns' tag' : Str) (h1 : Plain ns) (h2 : Plain tag)
    (h1' : Plain ns') (h2' : Plain tag') (p : Path) (h : assetsPath isFile dir ns tag = .ok p) :
    p = dir ++ [ns, tag] ∧ (assetsPath isFile dir ns' tag' = .ok p → ns = ns' ∧ tag = tag') := by
  have key : ∀ ns tag, Plain ns → Plain tag → ∀ p, assetsPath isFile dir ns tag = .ok p → p = dir ++ [ns, tag] := by
    intro ns tag h1 h2 p h
    unfold assetsPath at h
    rw [sanitize_plain h1, sanitize_plain h2, child_plain h1, child_plain h2, List.append_assoc] at h
    dsimp only at h
    by_cases hf : isFile (dir ++ ([ns] ++ [tag])) = true
    · rw [if_pos hf] at h
      cases h
    · rw [if_neg hf] at h
      exact (Except.ok.inj h).symm
  have hp := key ns tag h1 h2 p h
  refine ⟨hp, ?_⟩
  intro h'
  have hp' := key ns' tag' h1' h2' p h'
  rw [hp] at hp'
  have := List.append_cancel_left hp'
  simp only [List.cons.injEq, and_true] at this
  exact this

/-- **C65, deviation.** Different assets can have the same path: replaced characters are not told apart, and an empty namespace with a
tag is the same as the tag as namespace with an empty tag. -/
theorem paths_collide (dir : Path) :
    assetsPath (fun _ => false) dir "org/model".toList "v1".toList = assetsPath (fun _ => false) dir "org model".toList "v1".toList
    ∧ assetsPath (fun _ => false) dir "org/model".toList "v1".toList = assetsPath (fun _ => false) dir "org--model".toList "v1".toList
    ∧ assetsPath (fun _ => false) dir [] "v1".toList = assetsPath (fun _ => false) dir "v1".toList [] := by
  refine ⟨?_, ?_, ?_⟩
  · unfold assetsPath
    rw [show sanitize "org/model".toList = sanitize "org model".toList by decide]
  · unfold assetsPath
    rw [show sanitize "org/model".toList = sanitize "org--model".toList by decide]
  · rfl

/-- **C65, deviation.** With `..` as namespace and tag the path leaves the cache directory. -/
theorem parent_escapes (dir : Path) :
    assetsPath (fun _ => false) dir "..".toList "..".toList = .ok (dir ++ ["..".toList, "..".toList]) := by
  have hc : ∀ p : Path, child p "..".toList = p ++ ["..".toList] := fun p => if_neg (by decide)
  unfold assetsPath
  rw [show sanitize "..".toList = "..".toList by decide, hc, hc, List.append_assoc]
  rfl

/-! ## Concrete cases -/

example : Plain "llama".toList ∧ Plain "v1.2".toList := by
  unfold Plain
  decide

example : assetsPath (fun _ => false) ["home".toList] "meta/llama 3".toList "v1".toList
    = .ok ["home".toList, "meta--llama--3".toList, "v1".toList] := rfl

end FF.Cache
