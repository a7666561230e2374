import Verif.Granularity.Model
import Verif.Tiling.Props

/-! # Helper lemmas on granularities -/

namespace FF.Gran
open FF.Tens FF.Tiling

theorem pyIndex_lt {n : ℕ} {d : ℤ} {k : ℕ} (h : pyIndex n d = some k) : k < n := by
  unfold pyIndex at h
  split_ifs at h <;> simp at h <;> omega

theorem pyIndex_nat {n k : ℕ} (h : k < n) : pyIndex n (Int.ofNat k) = some k := by
  unfold pyIndex
  rw [if_pos ⟨by simp, by simpa using h⟩]; simp

/-- Setting several dimensions to one. -/
theorem setDims_spec (dims : List ℤ) (ts : List ℕ) :
    (∀ ts', dims.foldlM (fun ts d => setDim ts d 1) ts = .ok ts' →
      ts'.length = ts.length ∧ (∀ d ∈ dims, (pyIndex ts.length d).isSome) ∧
      ∀ k, ts'[k]? = if (∃ d ∈ dims, pyIndex ts.length d = some k) then (ts[k]?).map (fun _ => 1) else ts[k]?) ∧
    ((∀ d ∈ dims, (pyIndex ts.length d).isSome) → ∃ ts', dims.foldlM (fun ts d => setDim ts d 1) ts = .ok ts') := by
  induction dims generalizing ts with
  | nil =>
    constructor
    · intro ts' h
      simp [pure, Except.pure] at h
      subst h; simp
    · intro _; exact ⟨ts, rfl⟩
  | cons d dims ih =>
    constructor
    · intro ts' h
      simp only [List.foldlM_cons, bind, Except.bind, setDim] at h
      cases hp : pyIndex ts.length d with
      | none => simp [hp] at h
      | some k0 =>
        simp only [hp] at h
        obtain ⟨h1, h2, h3⟩ := (ih (ts.set k0 1)).1 ts' h
        simp only [List.length_set] at h1 h2 h3
        refine ⟨h1, ?_, ?_⟩
        · intro d' hd'
          rcases List.mem_cons.1 hd' with rfl | hd'
          · simp [hp]
          · exact h2 d' hd'
        · intro k
          rw [h3 k]
          by_cases hk : k0 = k
          · subst hk
            have : (∃ d_1 ∈ d :: dims, pyIndex ts.length d_1 = some k0) := ⟨d, by simp, hp⟩
            rw [if_pos this]
            have hlt := pyIndex_lt hp
            split_ifs <;> simp [hlt]
          · rw [List.getElem?_set_ne hk]
            have : (∃ d_1 ∈ d :: dims, pyIndex ts.length d_1 = some k) ↔ (∃ d ∈ dims, pyIndex ts.length d = some k) := by
              constructor
              · rintro ⟨e, he, hek⟩
                rcases List.mem_cons.1 he with rfl | he
                · rw [hp] at hek; exact absurd (Option.some.inj hek) hk
                · exact ⟨e, he, hek⟩
              · rintro ⟨e, he, hek⟩; exact ⟨e, by simp [he], hek⟩
            simp only [this]
    · intro h
      have hd := h d (by simp)
      obtain ⟨k0, hp⟩ := Option.isSome_iff_exists.1 hd
      simp only [List.foldlM_cons, bind, Except.bind, setDim, hp]
      apply (ih (ts.set k0 1)).2
      intro d' hd'
      rw [List.length_set]
      exact h d' (by simp [hd'])

/-- The condition under which one block dimension is accepted. -/
def BlockOk (shape : List ℕ) (strict : Bool) (p : ℤ × ℕ) : Prop :=
  ∃ k dim, pyIndex shape.length p.1 = some k ∧ shape[k]? = some dim ∧ p.2 ≤ dim ∧ (strict = true → p.2 ≠ 0 ∧ p.2 ∣ dim)

theorem blockStep_ok_iff (shape : List ℕ) (strict : Bool) (ts ts' : List ℕ) (p : ℤ × ℕ) :
    blockStep shape strict ts p = .ok ts' ↔ BlockOk shape strict p ∧ ∃ k, pyIndex shape.length p.1 = some k ∧ ts' = ts.set k p.2 := by
  unfold blockStep BlockOk
  cases hp : pyIndex shape.length p.1 with
  | none => simp
  | some k =>
    have hlt := pyIndex_lt hp
    have hg : shape.getD k 0 = shape[k] := by simp [List.getD_eq_getElem?_getD, hlt]
    simp only [hg, Option.some.injEq, exists_eq_left']
    constructor
    · intro h
      split_ifs at h with h1 h2 h3
      simp only [Except.ok.injEq] at h
      refine ⟨⟨k, shape[k], rfl, by rw [List.getElem?_eq_getElem hlt], by omega, ?_⟩, h.symm⟩
      intro hs
      refine ⟨fun h0 => h2 ⟨hs, h0⟩, Nat.dvd_of_mod_eq_zero ?_⟩
      by_contra hne
      exact h3 ⟨hs, hne⟩
    · rintro ⟨⟨k', dim, rfl, hdim, hle, hst⟩, rfl⟩
      rw [List.getElem?_eq_getElem hlt] at hdim
      obtain rfl := Option.some.inj hdim
      rw [if_neg (by omega), if_neg, if_neg]
      · rintro ⟨hs, hne⟩; exact hne (Nat.mod_eq_zero_of_dvd (hst hs).2)
      · rintro ⟨hs, h0⟩; exact (hst hs).1 h0

/-- The loop over block dimensions. -/
theorem blocks_spec (shape : List ℕ) (strict : Bool) (ps : List (ℤ × ℕ)) (ts : List ℕ) (hl : ts.length = shape.length) :
    (∀ ts', ps.foldlM (blockStep shape strict) ts = .ok ts' →
      ts'.length = shape.length ∧ (∀ p ∈ ps, BlockOk shape strict p) ∧
      (∀ k, (∀ p ∈ ps, pyIndex shape.length p.1 ≠ some k) → ts'[k]? = ts[k]?) ∧
      (∀ k, (∃ p ∈ ps, pyIndex shape.length p.1 = some k) →
        ∃ p ∈ ps, pyIndex shape.length p.1 = some k ∧ ts'[k]? = some p.2)) ∧
    ((∀ p ∈ ps, BlockOk shape strict p) → ∃ ts', ps.foldlM (blockStep shape strict) ts = .ok ts') := by
  induction ps generalizing ts with
  | nil =>
    constructor
    · intro ts' h
      simp [pure, Except.pure] at h
      subst h; simp [hl]
    · intro _; exact ⟨ts, rfl⟩
  | cons p ps ih =>
    constructor
    · intro ts' h
      simp only [List.foldlM_cons, bind, Except.bind] at h
      cases hb : blockStep shape strict ts p with
      | error e => simp [hb] at h
      | ok ts1 =>
        simp only [hb] at h
        obtain ⟨hok, k0, hk0, rfl⟩ := (blockStep_ok_iff ..).1 hb
        obtain ⟨h1, h2, h3, h4⟩ := (ih (ts.set k0 p.2) (by simp [hl])).1 ts' h
        refine ⟨h1, ?_, ?_, ?_⟩
        · intro q hq
          rcases List.mem_cons.1 hq with rfl | hq
          · exact hok
          · exact h2 q hq
        · intro k hk
          rw [h3 k (fun q hq => hk q (by simp [hq]))]
          rw [List.getElem?_set_ne]
          intro hkk; subst hkk
          exact hk p (by simp) hk0
        · rintro k ⟨q, hq, hqk⟩
          by_cases hex : ∃ p ∈ ps, pyIndex shape.length p.1 = some k
          · obtain ⟨r, hr, e1, e2⟩ := h4 k hex
            exact ⟨r, by simp [hr], e1, e2⟩
          · have hqp : q = p := by
              rcases List.mem_cons.1 hq with rfl | hq
              · rfl
              · exact absurd ⟨q, hq, hqk⟩ hex
            subst hqp
            rw [hk0] at hqk
            obtain rfl := Option.some.inj hqk
            refine ⟨q, by simp, hk0, ?_⟩
            rw [h3 k0 (fun r hr he => hex ⟨r, hr, he⟩)]
            have hlt := pyIndex_lt hk0
            rw [List.getElem?_set_self (by omega)]
    · intro h
      obtain ⟨k0, dim, hk0, -⟩ := h p (by simp)
      have hb := (blockStep_ok_iff shape strict ts (ts.set k0 p.2) p).2 ⟨h p (by simp), k0, hk0, rfl⟩
      simp only [List.foldlM_cons, bind, Except.bind, hb]
      exact (ih (ts.set k0 p.2) (by simp [hl])).2 (fun q hq => h q (by simp [hq]))

theorem divides_iff {s t : List ℕ} :
    Divides s t ↔ t.length = s.length ∧ ∀ (k d e : ℕ), s[k]? = some d → t[k]? = some e → 0 < e ∧ e ∣ d := by
  unfold Divides
  rw [List.forall₂_iff_get]
  constructor
  · rintro ⟨h1, h2⟩
    refine ⟨h1, ?_⟩
    intro k d e hd he
    obtain ⟨hk, rfl⟩ := List.getElem?_eq_some_iff.1 hd
    obtain ⟨hk', rfl⟩ := List.getElem?_eq_some_iff.1 he
    exact h2 k hk' hk
  · rintro ⟨h1, h2⟩
    refine ⟨h1, ?_⟩
    intro k ht hs
    exact h2 k _ _ (by rw [List.getElem?_eq_getElem hs]; rfl) (by rw [List.getElem?_eq_getElem ht]; rfl)

theorem inBounds_iff {s i : List ℕ} :
    InBounds s i ↔ i.length = s.length ∧ ∀ (k a d : ℕ), i[k]? = some a → s[k]? = some d → a < d := by
  unfold InBounds
  rw [List.forall₂_iff_get]
  constructor
  · rintro ⟨h1, h2⟩
    refine ⟨h1, ?_⟩
    intro k a d ha hd
    obtain ⟨hk, rfl⟩ := List.getElem?_eq_some_iff.1 ha
    obtain ⟨hk', rfl⟩ := List.getElem?_eq_some_iff.1 hd
    exact h2 k hk hk'
  · rintro ⟨h1, h2⟩
    refine ⟨h1, ?_⟩
    intro k hi hs
    exact h2 k _ _ (by rw [List.getElem?_eq_getElem hi]; rfl) (by rw [List.getElem?_eq_getElem hs]; rfl)

theorem divIdx_eq_iff {t i j : List ℕ} (hi : i.length = t.length) (hj : j.length = t.length) :
    divIdx i t = divIdx j t ↔ ∀ (k a b e : ℕ), i[k]? = some a → j[k]? = some b → t[k]? = some e → a / e = b / e := by
  constructor
  · intro h k a b e ha hb he
    have := congrArg (·[k]?) h
    simp only [divIdx, List.getElem?_zipWith, ha, hb, he] at this
    exact Option.some.inj this
  · intro h
    apply List.ext_getElem?
    intro k
    simp only [divIdx, List.getElem?_zipWith]
    by_cases hk : k < t.length
    · rw [List.getElem?_eq_getElem hk, List.getElem?_eq_getElem (by omega : k < i.length), List.getElem?_eq_getElem (by omega : k < j.length)]
      simp only
      rw [h k _ _ _ (List.getElem?_eq_getElem (by omega)) (List.getElem?_eq_getElem (by omega)) (List.getElem?_eq_getElem hk)]
    · rw [List.getElem?_eq_none (by omega : i.length ≤ k), List.getElem?_eq_none (by omega : j.length ≤ k)]

end FF.Gran
