import Mathlib.Data.List.Basic

/-!
# Dotted names

Python's `s.split(".")` and `".".join(parts)` on strings, which are lists of characters here.
-/

namespace FF.Dotted

/-- `s.split(".")`. -/
def split : List Char → List (List Char)
  | [] => [[]]
  | c :: cs =>
    if c = '.' then [] :: split cs
    else
      match split cs with
      | [] => [[c]]
      | p :: ps => (c :: p) :: ps

/-- `".".join(parts)`. -/
def join : List (List Char) → List Char
  | [] => []
  | [p] => p
  | p :: q :: ps => p ++ '.' :: join (q :: ps)

theorem split_ne_nil (s : List Char) : split s ≠ [] := by
  cases s with
  | nil => nofun
  | cons c cs =>
    unfold split
    split
    · nofun
    · split <;> nofun

theorem join_split (s : List Char) : join (split s) = s := by
  induction s with
  | nil => rfl
  | cons c cs ih =>
    unfold split
    split
    · next h =>
      subst h
      cases hs : split cs with
      | nil => exact absurd hs (split_ne_nil cs)
      | cons p ps =>
        rw [hs] at ih
        simp only [join, List.nil_append]
        rw [ih]
    · cases hs : split cs with
      | nil => exact absurd hs (split_ne_nil cs)
      | cons p ps =>
        rw [hs] at ih
        cases ps with
        | nil => simp only [join] at ih ⊢; rw [ih]
        | cons q ps => simp only [join] at ih ⊢; rw [← ih]; rfl

theorem split_no_dot (s : List Char) : ∀ p ∈ split s, '.' ∉ p := by
  induction s with
  | nil => simp [split]
  | cons c cs ih =>
    unfold split
    split
    · intro p hp
      rcases List.mem_cons.1 hp with rfl | hp
      · exact List.not_mem_nil
      · exact ih p hp
    · next hc =>
      cases hs : split cs with
      | nil => exact absurd hs (split_ne_nil cs)
      | cons p ps =>
        rw [hs] at ih
        intro q hq
        rcases List.mem_cons.1 hq with rfl | hq
        · intro hd
          rcases List.mem_cons.1 hd with hd | hd
          · exact hc hd.symm
          · exact ih p List.mem_cons_self hd
        · exact ih q (List.mem_cons_of_mem _ hq)

theorem split_of_no_dot {p : List Char} (h : '.' ∉ p) : split p = [p] := by
  induction p with
  | nil => rfl
  | cons c cs ih =>
    rw [List.mem_cons, not_or] at h
    unfold split
    rw [if_neg (fun hc => h.1 hc.symm), ih h.2]

theorem split_append_dot {p : List Char} (h : '.' ∉ p) (r : List Char) : split (p ++ '.' :: r) = p :: split r := by
  induction p with
  | nil =>
    rw [List.nil_append, split, if_pos rfl]
  | cons c cs ih =>
    rw [List.mem_cons, not_or] at h
    rw [List.cons_append, split, if_neg (fun hc => h.1 hc.symm), ih h.2]

theorem split_join {ps : List (List Char)} (hne : ps ≠ []) (h : ∀ p ∈ ps, '.' ∉ p) : split (join ps) = ps := by
  induction ps with
  | nil => exact absurd rfl hne
  | cons p ps ih =>
    cases ps with
    | nil => exact split_of_no_dot (h p List.mem_cons_self)
    | cons q ps =>
      rw [join, split_append_dot (h p List.mem_cons_self), ih nofun (fun r hr => h r (List.mem_cons_of_mem _ hr))]

theorem join_append {ps qs : List (List Char)} (hp : ps ≠ []) (hq : qs ≠ []) : join (ps ++ qs) = join ps ++ '.' :: join qs := by
  induction ps with
  | nil => exact absurd rfl hp
  | cons p ps ih =>
    cases ps with
    | nil =>
      cases qs with
      | nil => exact absurd rfl hq
      | cons q qs => rfl
    | cons p' ps =>
      rw [List.cons_append, List.cons_append, join, ← List.cons_append, ih nofun, join]
      simp

theorem join_inj {ps qs : List (List Char)} (hp : ps ≠ []) (hq : qs ≠ []) (h1 : ∀ p ∈ ps, '.' ∉ p) (h2 : ∀ p ∈ qs, '.' ∉ p)
    (h : join ps = join qs) : ps = qs := by
  rw [← split_join hp h1, h, split_join hq h2]

theorem mem_join_iff (ps : List (List Char)) (h : ∀ p ∈ ps, '.' ∉ p) : '.' ∈ join ps ↔ 2 ≤ ps.length := by
  cases ps with
  | nil => simp [join]
  | cons p ps =>
    cases ps with
    | nil => simpa [join] using h p List.mem_cons_self
    | cons q ps => simp [join]

end FF.Dotted
