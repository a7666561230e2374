/-
Python dictionaries: lists of entries in insertion order.
-/
import Mathlib.Data.List.Basic
import Mathlib.Data.List.Nodup
import Mathlib.Tactic.Common

set_option linter.unusedSectionVars false

namespace FF.Dict

variable {K V : Type} [DecidableEq K]

/-- `d.get(k)`. -/
def get : List (K × V) → K → Option V
  | [], _ => none
  | (k', v) :: d, k => if k' = k then some v else get d k

/-- `d[k] = v`: an existing entry keeps its position. -/
def set : List (K × V) → K → V → List (K × V)
  | [], k, v => [(k, v)]
  | (k', v') :: d, k, v => if k' = k then (k, v) :: d else (k', v') :: set d k v

/-- `d.keys()`. -/
def keys (d : List (K × V)) : List K := d.map Prod.fst

/-- `dict(entries)`: later entries win. -/
def ofList (l : List (K × V)) : List (K × V) := l.foldl (fun d e => set d e.1 e.2) []

theorem get_set (d : List (K × V)) (k k' : K) (v : V) :
    get (set d k v) k' = if k = k' then some v else get d k' := by
  induction d with
  | nil => simp [set, get]
  | cons e d ih =>
    obtain ⟨a, b⟩ := e
    unfold set
    by_cases h : a = k
    · subst h
      rw [if_pos rfl]
      by_cases h2 : a = k'
      · simp [get, h2]
      · simp [get, h2]
    · rw [if_neg h]
      simp only [get, ih]
      by_cases h2 : a = k'
      · subst h2
        have : ¬ k = a := fun hh => h hh.symm
        simp [this]
      · simp [h2]

@[simp] theorem get_set_self (d : List (K × V)) (k : K) (v : V) : get (set d k v) k = some v := by
  rw [get_set, if_pos rfl]

theorem get_set_ne (d : List (K × V)) {k k' : K} (v : V) (h : k ≠ k') :
    get (set d k v) k' = get d k' := by
  rw [get_set, if_neg h]

theorem get_mem {d : List (K × V)} {k : K} {v : V} (h : get d k = some v) : (k, v) ∈ d := by
  induction d with
  | nil => cases h
  | cons e d ih =>
    obtain ⟨a, b⟩ := e
    unfold get at h
    split at h
    · rename_i he; subst he; cases h; simp
    · simp [ih h]

theorem get_none_iff {d : List (K × V)} {k : K} : get d k = none ↔ k ∉ keys d := by
  induction d with
  | nil => simp [get, keys]
  | cons e d ih =>
    obtain ⟨a, b⟩ := e
    simp only [get, keys, List.map_cons, List.mem_cons, not_or]
    by_cases h : a = k
    · subst h; simp
    · rw [if_neg h, ih]
      exact ⟨fun hh => ⟨fun h2 => h h2.symm, hh⟩, fun hh => hh.2⟩

theorem get_isSome_iff {d : List (K × V)} {k : K} : (get d k).isSome ↔ k ∈ keys d := by
  have := get_none_iff (d := d) (k := k)
  cases h : get d k with
  | none => simp [this.1 h]
  | some v =>
    simp only [Option.isSome_some, true_iff]
    by_contra hn
    rw [this.2 hn] at h
    cases h

theorem get_eq_some_iff {d : List (K × V)} (hn : (keys d).Nodup) {k : K} {v : V} :
    get d k = some v ↔ (k, v) ∈ d := by
  refine ⟨get_mem, ?_⟩
  induction d with
  | nil => intro h; cases h
  | cons e d ih =>
    obtain ⟨a, b⟩ := e
    simp only [keys, List.map_cons, List.nodup_cons] at hn
    intro h
    rcases List.mem_cons.1 h with h | h
    · cases h; simp [get]
    · have : a ≠ k := by
        rintro rfl
        exact hn.1 (List.mem_map_of_mem (f := Prod.fst) h)
      rw [get, if_neg this]
      exact ih hn.2 h

theorem mem_keys_set (d : List (K × V)) (k k' : K) (v : V) :
    k' ∈ keys (set d k v) ↔ k' = k ∨ k' ∈ keys d := by
  rw [← get_isSome_iff, get_set]
  by_cases h : k = k'
  · subst h; simp
  · rw [if_neg h, get_isSome_iff]
    exact ⟨.inr, fun hh => hh.resolve_left (fun h2 => h h2.symm)⟩

theorem nodup_set {d : List (K × V)} (h : (keys d).Nodup) (k : K) (v : V) :
    (keys (set d k v)).Nodup := by
  induction d with
  | nil => simp [set, keys]
  | cons e d ih =>
    obtain ⟨a, b⟩ := e
    have h' : a ∉ keys d ∧ (keys d).Nodup := by simpa [keys] using h
    unfold set
    split
    · rename_i he
      subst he
      exact h
    · rename_i he
      have : keys ((a, b) :: set d k v) = a :: keys (set d k v) := rfl
      rw [this, List.nodup_cons]
      refine ⟨?_, ih h'.2⟩
      rw [mem_keys_set]
      rintro (hh | hh)
      · exact he hh
      · exact h'.1 hh

theorem mem_set_iff {d : List (K × V)} (hn : (keys d).Nodup) (k : K) (v : V) (e : K × V) :
    e ∈ set d k v ↔ e = (k, v) ∨ (e ∈ d ∧ e.1 ≠ k) := by
  obtain ⟨a, b⟩ := e
  rw [← get_eq_some_iff (nodup_set hn k v), get_set]
  by_cases h : k = a
  · subst h; simp [eq_comm]
  · rw [if_neg h, get_eq_some_iff hn]
    have : ¬ a = k := fun hh => h hh.symm
    simp [this]

/-- Adding a new key appends an entry. -/
theorem set_new {d : List (K × V)} {k : K} (h : k ∉ keys d) (v : V) : set d k v = d ++ [(k, v)] := by
  induction d with
  | nil => rfl
  | cons e d ih =>
    obtain ⟨a, b⟩ := e
    simp only [keys, List.map_cons, List.mem_cons, not_or] at h
    rw [set, if_neg (fun hh => h.1 hh.symm), ih h.2]
    rfl

theorem foldl_set_append (l : List (K × V)) (d : List (K × V))
    (h : (keys (d ++ l)).Nodup) : l.foldl (fun d e => set d e.1 e.2) d = d ++ l := by
  induction l generalizing d with
  | nil => simp
  | cons e l ih =>
    have hk : e.1 ∉ keys d := by
      simp only [keys, List.map_append, List.map_cons] at h
      rw [List.nodup_append] at h
      intro hh
      exact h.2.2 _ hh _ (by simp) rfl
    rw [List.foldl_cons, set_new hk, ih]
    · simp
    · simpa using h

/-- With distinct keys, `dict(entries)` has the given entries. -/
theorem ofList_nodup {l : List (K × V)} (h : (keys l).Nodup) : ofList l = l := by
  have := foldl_set_append l [] (by simpa using h)
  simpa [ofList] using this

theorem foldl_set_nodup (l d : List (K × V)) (h : (keys d).Nodup) :
    (keys (l.foldl (fun d e => set d e.1 e.2) d)).Nodup := by
  induction l generalizing d with
  | nil => exact h
  | cons e l ih => exact ih _ (nodup_set h _ _)

theorem nodup_ofList (l : List (K × V)) : (keys (ofList l)).Nodup :=
  foldl_set_nodup l [] (by simp [keys])

theorem mem_keys_foldl (l d : List (K × V)) (k : K) :
    k ∈ keys (l.foldl (fun d e => set d e.1 e.2) d) ↔ k ∈ keys d ∨ k ∈ keys l := by
  induction l generalizing d with
  | nil => simp [keys]
  | cons e l ih =>
    rw [List.foldl_cons, ih, mem_keys_set]
    simp only [keys, List.map_cons, List.mem_cons]
    tauto

theorem mem_keys_ofList (l : List (K × V)) (k : K) : k ∈ keys (ofList l) ↔ k ∈ keys l := by
  rw [ofList, mem_keys_foldl]; simp [keys]

theorem foldl_set_get_mem (l d : List (K × V)) (k : K) (v : V)
    (h : get (l.foldl (fun d e => set d e.1 e.2) d) k = some v) : (k, v) ∈ l ∨ get d k = some v := by
  induction l generalizing d with
  | nil => exact .inr h
  | cons e l ih =>
    rcases ih _ h with h | h
    · exact .inl (by simp [h])
    · rw [get_set] at h
      split at h
      · rename_i he; cases h; left; rw [← he]; simp
      · exact .inr h

theorem ofList_get_mem {l : List (K × V)} {k : K} {v : V} (h : get (ofList l) k = some v) :
    (k, v) ∈ l := by
  rcases foldl_set_get_mem l [] k v h with h | h
  · exact h
  · cases h

theorem get_map {W : Type} (f : V → W) (d : List (K × V)) (k : K) :
    get (d.map (fun e => (e.1, f e.2))) k = (get d k).map f := by
  induction d with
  | nil => rfl
  | cons e d ih =>
    simp only [List.map_cons, get]
    split
    · rfl
    · exact ih

/-- A list, if it is not empty. -/
def nonEmpty {α : Type} : List α → Option (List α)
  | [] => none
  | a :: l => some (a :: l)

theorem nonEmpty_some {α : Type} {l l' : List α} : nonEmpty l = some l' ↔ l = l' ∧ l ≠ [] := by
  cases l <;> simp [nonEmpty]

/-- Grouping with a dictionary of lists. -/
theorem group_spec {E : Type} (kf : E → K) (vf : E → V) (l : List E) :
    let g := l.foldl (fun g e => set g (kf e) ((get g (kf e)).getD [] ++ [vf e]))
      ([] : List (K × List V))
    (keys g).Nodup ∧ ∀ k, get g k = nonEmpty ((l.filter (fun e => decide (kf e = k))).map vf) := by
  suffices h : ∀ (l : List E) (g : List (K × List V)), (keys g).Nodup →
      (∀ k ns, get g k = some ns → ns ≠ []) →
      let g' := l.foldl (fun g e => set g (kf e) ((get g (kf e)).getD [] ++ [vf e])) g
      (keys g').Nodup ∧ ∀ k, get g' k = nonEmpty ((get g k).getD [] ++
            (l.filter (fun e => decide (kf e = k))).map vf) by
    have := h l [] (by simp [keys]) (by intro k ns h; cases h)
    refine ⟨this.1, fun k => ?_⟩
    rw [this.2 k]
    rfl
  intro l
  induction l with
  | nil =>
    intro g hg hne
    refine ⟨hg, ?_⟩
    intro k
    simp only [List.foldl_nil, List.filter_nil, List.map_nil, List.append_nil]
    cases hk : get g k with
    | none => rfl
    | some ns => exact (nonEmpty_some.2 ⟨rfl, hne k ns hk⟩).symm
  | cons e l ih =>
    intro g hg hne
    have := ih (set g (kf e) ((get g (kf e)).getD [] ++ [vf e]))
      (nodup_set hg _ _)
      (by
        intro k ns hk
        rw [get_set] at hk
        split at hk
        · cases hk; simp
        · exact hne k ns hk)
    refine ⟨this.1, ?_⟩
    intro k
    rw [List.foldl_cons, this.2 k, get_set]
    by_cases he : kf e = k
    · rw [if_pos he]
      subst he
      simp [List.append_assoc]
    · rw [if_neg he, List.filter_cons_of_neg (by simpa using he)]

/-- Writing entries that do not contradict each other. -/
theorem get_foldl_consistent (l : List (K × V)) (d : List (K × V))
    (h : ∀ e ∈ l, ∀ e' ∈ l, e.1 = e'.1 → e.2 = e'.2) {k : K} {v : V} (hm : (k, v) ∈ l) :
    get (l.foldl (fun d e => set d e.1 e.2) d) k = some v := by
  have hk : k ∈ keys (l.foldl (fun d e => set d e.1 e.2) d) := by
    rw [mem_keys_foldl]
    exact .inr (List.mem_map_of_mem (f := Prod.fst) hm)
  obtain ⟨v', hv'⟩ := Option.isSome_iff_exists.1 (get_isSome_iff.2 hk)
  clear hk
  rw [hv']
  induction l generalizing d v' with
  | nil => cases hm
  | cons e l ih =>
    rw [List.foldl_cons] at hv'
    by_cases hin : (k, v) ∈ l
    · exact ih _ (fun a ha b hb => h a (by simp [ha]) b (by simp [hb])) hin v' hv'
    · rcases List.mem_cons.1 hm with he | he
      · subst he
        rcases foldl_set_get_mem _ _ _ _ hv' with h' | h'
        · exact congrArg some (h (k, v') (by simp [h']) (k, v) (by simp) rfl)
        · rw [get_set_self] at h'; exact h'.symm
      · exact absurd he hin

theorem get_foldl_of_not_mem (l d : List (K × V)) {k : K} (h : k ∉ keys l) :
    get (l.foldl (fun d e => set d e.1 e.2) d) k = get d k := by
  induction l generalizing d with
  | nil => rfl
  | cons e l ih =>
    simp only [keys, List.map_cons, List.mem_cons, not_or] at h
    rw [List.foldl_cons, ih _ h.2, get_set_ne _ _ (fun hh => h.1 hh.symm)]

end FF.Dict
