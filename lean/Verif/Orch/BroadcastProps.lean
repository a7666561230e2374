import Verif.Orch.Engine
import Verif.Orch.TopoLemmas

/-! # Aligning activations (C25) -/

namespace FF.Orch

variable {V W : Type}

/-! ### Specification -/

/-- `out` are the streams `ds` brought to a common length `N`, the length of one of them: a stream of that length is unchanged, any
other has a single batch, which is repeated. -/
def Aligned (ds out : List (List V)) (N : ℕ) : Prop :=
  out.length = ds.length ∧ (∃ d ∈ ds, d.length = N) ∧
  ∀ (i : ℕ) (d o : List V), ds[i]? = some d → out[i]? = some o →
    (d.length = N ∧ o = d) ∨ ∃ v, d = [v] ∧ o = List.replicate N v

/-- Two streams of different lengths, neither of length one. -/
def Clash (ds : List (List V)) : Prop := ∃ d ∈ ds, ∃ d' ∈ ds, d.length ≠ d'.length ∧ d.length ≠ 1 ∧ d'.length ≠ 1

/-! ### Lemmas -/

theorem flatten_replicate_single (n : ℕ) (v : V) : (List.replicate n [v]).flatten = List.replicate n v := by
  induction n with
  | zero => rfl
  | succ n ih => simp [List.replicate_succ, ih]

theorem mem_lengths {ds : List (List V)} {n : ℕ} : n ∈ dedupe [] (ds.map List.length) ↔ ∃ d ∈ ds, d.length = n := by
  rw [mem_dedupe]; simp

theorem short_nodup_eq {l : List ℕ} (h : l.length ≤ 1) {a b : ℕ} (ha : a ∈ l) (hb : b ∈ l) : a = b := by
  match l, h with
  | [], _ => simp at ha
  | [x], _ => simp at ha hb; rw [ha, hb]

theorem broadcast_cases (ds : List (List V)) :
    (ds = [] ∧ broadcast ds = .ok []) ∨ (∃ out N, broadcast ds = .ok out ∧ Aligned ds out N) ∨
      (broadcast ds = .error .valueError ∧ Clash ds) := by
  by_cases hne : ds = []
  · left; subst hne; exact ⟨rfl, rfl⟩
  right
  unfold broadcast
  simp only
  set L := dedupe [] (ds.map List.length) with hL
  have hnd : L.Nodup := dedupe_nodup _ _
  have hmem : ∀ n, n ∈ L ↔ ∃ d ∈ ds, d.length = n := fun n => mem_lengths
  by_cases h1 : L.length ≤ 1
  · left
    rw [if_pos h1]
    obtain ⟨d0, hd0⟩ := List.exists_mem_of_ne_nil _ hne
    refine ⟨ds, d0.length, rfl, rfl, ⟨d0, hd0, rfl⟩, ?_⟩
    intro i d o hd ho
    rw [hd] at ho
    obtain rfl := Option.some.inj ho
    left
    exact ⟨short_nodup_eq h1 ((hmem _).2 ⟨d, List.mem_of_getElem? hd, rfl⟩) ((hmem _).2 ⟨d0, hd0, rfl⟩), rfl⟩
  · rw [if_neg h1]
    cases hf : L.filter (· ≠ 1) with
    | nil =>
      exfalso
      rw [List.filter_eq_nil_iff] at hf
      match hl : L, h1 with
      | a :: b :: rest, _ =>
        have ha := hf a (by simp)
        have hb := hf b (by simp)
        simp at ha hb
        simp [ha, hb] at hnd
      | [], h1 => simp at h1
      | [a], h1 => simp at h1
    | cons t rest =>
      have ht : t ∈ L.filter (· ≠ 1) := by rw [hf]; simp
      rw [List.mem_filter] at ht
      have ht1 : t ≠ 1 := by simpa using ht.2
      cases rest with
      | nil =>
        left
        refine ⟨_, t, rfl, by simp, (hmem t).1 ht.1, ?_⟩
        intro i d o hd ho
        rw [List.getElem?_map, hd] at ho
        simp only [Option.map_some, Option.some.injEq] at ho
        by_cases hd1 : d.length = 1
        · right
          obtain ⟨v, rfl⟩ := List.length_eq_one_iff.1 hd1
          refine ⟨v, rfl, ?_⟩
          rw [← ho, if_pos hd1, flatten_replicate_single]
        · left
          rw [if_neg hd1] at ho
          refine ⟨?_, ho.symm⟩
          have : d.length ∈ L.filter (· ≠ 1) := by
            rw [List.mem_filter]; exact ⟨(hmem _).2 ⟨d, List.mem_of_getElem? hd, rfl⟩, by simpa using hd1⟩
          rw [hf] at this
          simpa using this
      | cons t2 rest =>
        right
        refine ⟨rfl, ?_⟩
        have ht2 : t2 ∈ L.filter (· ≠ 1) := by rw [hf]; simp
        rw [List.mem_filter] at ht2
        have hne2 : t ≠ t2 := by
          have := hnd.filter (fun x => decide (x ≠ 1))
          rw [hf] at this
          intro h
          simp [h] at this
        obtain ⟨d, hd, hdl⟩ := (hmem t).1 ht.1
        obtain ⟨d', hd', hdl'⟩ := (hmem t2).1 ht2.1
        refine ⟨d, hd, d', hd', ?_, ?_, ?_⟩
        · rw [hdl, hdl']; exact hne2
        · rw [hdl]; exact ht1
        · rw [hdl']; simpa using ht2.2

theorem aligned_not_clash {ds out : List (List V)} {N : ℕ} (h : Aligned ds out N) : ¬ Clash ds := by
  rintro ⟨d, hd, d', hd', h1, h2, h3⟩
  have key : ∀ d ∈ ds, d.length ≠ 1 → d.length = N := by
    intro d hd hl
    obtain ⟨i, hi, rfl⟩ := List.getElem_of_mem hd
    have ho : i < out.length := by rw [h.1]; exact hi
    rcases h.2.2 i _ _ (List.getElem?_eq_getElem hi) (List.getElem?_eq_getElem ho) with h4 | ⟨v, h4, _⟩
    · exact h4.1
    · rw [h4] at hl; simp at hl
  exact h1 ((key d hd h2).trans (key d' hd' h3).symm)

theorem aligned_unique {ds out out' : List (List V)} {N N' : ℕ} (h : Aligned ds out N) (h' : Aligned ds out' N') :
    N = N' ∧ out = out' := by
  have hN : ∀ {o o' : List (List V)} {M M' : ℕ}, Aligned ds o M → Aligned ds o' M' → M' ≠ 1 → M = M' := by
    intro o o' M M' h h' hM
    obtain ⟨d, hd, hdl⟩ := h'.2.1
    obtain ⟨i, hi, rfl⟩ := List.getElem_of_mem hd
    have ho : i < o.length := by rw [h.1]; exact hi
    rcases h.2.2 i _ _ (List.getElem?_eq_getElem hi) (List.getElem?_eq_getElem ho) with h4 | ⟨v, h4, _⟩
    · rw [← h4.1, hdl]
    · rw [h4] at hdl; simp at hdl; omega
  have hNN : N = N' := by
    by_cases h1 : N' = 1
    · by_cases h2 : N = 1
      · rw [h1, h2]
      · exact (hN h' h h2).symm
    · exact hN h h' h1
  subst hNN
  refine ⟨rfl, ?_⟩
  apply List.ext_getElem?
  intro i
  by_cases hi : i < ds.length
  · have ho : i < out.length := by rw [h.1]; exact hi
    have ho' : i < out'.length := by rw [h'.1]; exact hi
    rw [List.getElem?_eq_getElem ho, List.getElem?_eq_getElem ho']
    congr 1
    rcases h.2.2 i _ _ (List.getElem?_eq_getElem hi) (List.getElem?_eq_getElem ho) with h4 | ⟨v, h4, h5⟩
    · rcases h'.2.2 i _ _ (List.getElem?_eq_getElem hi) (List.getElem?_eq_getElem ho') with h6 | ⟨v', h6, h7⟩
      · rw [h4.2, h6.2]
      · rw [h4.2, h7]
        have := h4.1
        rw [h6] at this
        rw [h6, ← this]; rfl
    · rcases h'.2.2 i _ _ (List.getElem?_eq_getElem hi) (List.getElem?_eq_getElem ho') with h6 | ⟨v', h6, h7⟩
      · rw [h6.2, h5]
        have := h6.1
        rw [h4] at this
        rw [h4, ← this]; rfl
      · rw [h4] at h6
        rw [h5, h7, List.cons.inj h6 |>.1]
  · rw [List.getElem?_eq_none (by rw [h.1]; omega), List.getElem?_eq_none (by rw [h'.1]; omega)]

/-! ### Properties -/

/-- **C25.** Broadcasting a non-empty list of streams returns exactly their alignment. -/
theorem broadcast_ok_iff (ds out : List (List V)) (hne : ds ≠ []) : broadcast ds = .ok out ↔ ∃ N, Aligned ds out N := by
  rcases broadcast_cases ds with ⟨h, _⟩ | ⟨o, N, h1, h2⟩ | ⟨h1, h2⟩
  · exact absurd h hne
  · rw [h1]
    constructor
    · intro h; obtain rfl := Except.ok.inj h; exact ⟨N, h2⟩
    · rintro ⟨N', h3⟩; rw [(aligned_unique h2 h3).2]
  · rw [h1]
    constructor
    · intro h; simp at h
    · rintro ⟨N, h3⟩; exact absurd h2 (aligned_not_clash h3)

/-- **C25.** Broadcasting fails, with a `ValueError`, exactly when two streams have different lengths other than one. -/
theorem broadcast_error_iff (ds : List (List V)) (e : EErr) : broadcast ds = .error e ↔ e = .valueError ∧ Clash ds := by
  rcases broadcast_cases ds with ⟨h, h1⟩ | ⟨o, N, h1, h2⟩ | ⟨h1, h2⟩
  · subst h; rw [h1]
    constructor
    · intro h; simp at h
    · rintro ⟨_, d, hd, _⟩; simp at hd
  · rw [h1]
    constructor
    · intro h; simp at h
    · rintro ⟨_, h3⟩; exact absurd h3 (aligned_not_clash h2)
  · rw [h1]
    constructor
    · intro h; exact ⟨(Except.error.inj h).symm, h2⟩
    · rintro ⟨rfl, _⟩; rfl

theorem mapM_option_spec {α β : Type} (f : α → Option β) (l : List α) (r : List β) :
    l.mapM f = some r ↔ r.length = l.length ∧ ∀ (i : ℕ) (a : α) (b : β), l[i]? = some a → r[i]? = some b → f a = some b := by
  induction l generalizing r with
  | nil =>
    simp only [List.mapM_nil, List.length_nil, List.length_eq_zero_iff, List.getElem?_nil]
    constructor
    · intro h; have h := (Option.some.inj h).symm; subst h; simp
    · rintro ⟨rfl, _⟩; rfl
  | cons a as ih =>
    rw [List.mapM_cons]
    simp only [bind, Option.bind, pure]
    cases hfa : f a with
    | none =>
      simp only [reduceCtorEq, false_iff, not_and]
      intro hl h
      have : 0 < r.length := by rw [hl]; simp
      have := h 0 a r[0] (by simp) (List.getElem?_eq_getElem this)
      rw [hfa] at this; simp at this
    | some b =>
      cases hrest : as.mapM f with
      | none =>
        simp only [reduceCtorEq, false_iff, not_and]
        intro hl h
        cases r with
        | nil => simp at hl
        | cons b' r' =>
          have := (ih r').2 ⟨by simpa using hl, fun i x y h1 h2 => h (i + 1) x y (by simpa using h1) (by simpa using h2)⟩
          rw [hrest] at this; simp at this
      | some r' =>
        obtain ⟨h1, h2⟩ := (ih r').1 hrest
        simp only [Option.some.injEq]
        constructor
        · rintro rfl
          refine ⟨by simp [h1], ?_⟩
          intro i x y hx hy
          cases i with
          | zero => simp at hx hy; rw [← hx, ← hy]; exact hfa
          | succ i => exact h2 i x y (by simpa using hx) (by simpa using hy)
        · rintro ⟨hl, h⟩
          cases r with
          | nil => simp at hl
          | cons b' r2 =>
            have hb : f a = some b' := h 0 a b' rfl rfl
            rw [hfa] at hb
            obtain rfl := Option.some.inj hb
            have := (ih r2).2 ⟨by simpa using hl, fun i x y h1 h2 => h (i + 1) x y (by simpa using h1) (by simpa using h2)⟩
            rw [hrest] at this
            rw [Option.some.inj this]

/-- Rows `rows` are the streams `ds` read batch by batch. -/
def Transposed (ds rows : List (List V)) : Prop :=
  (∀ d ∈ ds, d.length = rows.length) ∧ (∀ row ∈ rows, row.length = ds.length) ∧
  ∀ (i j : ℕ) (d row : List V), ds[j]? = some d → rows[i]? = some row → row[j]? = d[i]?

theorem transposed_unique {ds rows rows' : List (List V)} (hne : ds ≠ []) (h : Transposed ds rows) (h' : Transposed ds rows') :
    rows = rows' := by
  obtain ⟨d0, hd0⟩ := List.exists_mem_of_ne_nil _ hne
  have hl : rows.length = rows'.length := by rw [← h.1 d0 hd0, h'.1 d0 hd0]
  apply List.ext_getElem hl
  intro i h1 h2
  apply List.ext_getElem?
  intro j
  by_cases hj : j < ds.length
  · rw [h.2.2 i j _ _ (List.getElem?_eq_getElem hj) (List.getElem?_eq_getElem h1),
      h'.2.2 i j _ _ (List.getElem?_eq_getElem hj) (List.getElem?_eq_getElem h2)]
  · rw [List.getElem?_eq_none (by rw [h.2.1 _ (List.getElem_mem h1)]; omega),
      List.getElem?_eq_none (by rw [h'.2.1 _ (List.getElem_mem h2)]; omega)]

/-- **C25.** Combining output streams succeeds exactly when there is at least one and all have the same length, and then returns the
streams read batch by batch; otherwise it is a `ValueError`. -/
theorem merge_spec (ds : List (List V)) :
    (∀ rows, merge ds = .ok rows ↔ ds ≠ [] ∧ Transposed ds rows) ∧
    ((∃ rows, merge ds = .ok rows) ↔ ds ≠ [] ∧ ∀ d ∈ ds, ∀ d' ∈ ds, d.length = d'.length) ∧
    (∀ e, merge ds = .error e → e = .valueError) := by
  have key : (ds = [] ∧ merge ds = .error .valueError) ∨
      (ds ≠ [] ∧ ∃ rows, merge ds = .ok rows ∧ Transposed ds rows) ∨
      (ds ≠ [] ∧ merge ds = .error .valueError ∧ ∃ d ∈ ds, ∃ d' ∈ ds, d.length ≠ d'.length) := by
    match ds with
    | [] => left; exact ⟨rfl, rfl⟩
    | [d] =>
      right; left
      refine ⟨by simp, d.map ([·]), rfl, ?_, ?_, ?_⟩
      · simp
      · intro row hr
        obtain ⟨v, _, rfl⟩ := List.mem_map.1 hr
        rfl
      · intro i j d' row hd hr
        have hj : j = 0 := by
          by_contra hj
          rw [List.getElem?_eq_none (by simp; omega)] at hd
          simp at hd
        subst hj
        simp at hd
        subst hd
        rw [List.getElem?_map] at hr
        obtain ⟨v, hv, rfl⟩ := Option.map_eq_some_iff.1 hr
        simp [hv]
    | d :: d2 :: rest =>
      right
      set ds := d :: d2 :: rest with hds
      have hne : ds ≠ [] := by simp [hds]
      by_cases hl : (dedupe [] (ds.map List.length)).length > 1
      · right
        refine ⟨hne, ?_, ?_⟩
        · simp only [hds, merge]; rw [← hds, if_pos hl]
        · have hnd := dedupe_nodup [] (ds.map List.length)
          match hL : dedupe [] (ds.map List.length), hl with
          | a :: b :: r, _ =>
            rw [hL] at hnd
            obtain ⟨x, hx, hxl⟩ := mem_lengths.1 (show a ∈ dedupe [] (ds.map List.length) by rw [hL]; simp)
            obtain ⟨y, hy, hyl⟩ := mem_lengths.1 (show b ∈ dedupe [] (ds.map List.length) by rw [hL]; simp)
            refine ⟨x, hx, y, hy, ?_⟩
            rw [hxl, hyl]
            intro h
            simp [h] at hnd
          | [], h => simp at h
          | [a], h => simp at h
      · left
        refine ⟨hne, ?_⟩
        have heq : ∀ x ∈ ds, x.length = d.length := by
          intro x hx
          exact short_nodup_eq (l := dedupe [] (ds.map List.length)) (by omega) (mem_lengths.2 ⟨x, hx, rfl⟩)
            (mem_lengths.2 ⟨d, by simp [hds], rfl⟩)
        have hrows : ∃ rows, (List.range d.length).mapM (fun i => ds.mapM fun x => x[i]?) = some rows := by
          have : ∀ l : List ℕ, (∀ i ∈ l, i < d.length) → ∃ rows, l.mapM (fun i => ds.mapM fun x => x[i]?) = some rows := by
            intro l
            induction l with
            | nil => intro _; exact ⟨[], rfl⟩
            | cons a as ih =>
              intro hla
              obtain ⟨rows, hr⟩ := ih fun i hi => hla i (by simp [hi])
              have hrow : ∃ row, ds.mapM (fun x => x[a]?) = some row := by
                have : ∀ l : List (List V), (∀ x ∈ l, a < x.length) → ∃ row, l.mapM (fun x => x[a]?) = some row := by
                  intro l
                  induction l with
                  | nil => intro _; exact ⟨[], rfl⟩
                  | cons y ys ih2 =>
                    intro hy
                    obtain ⟨r, hr⟩ := ih2 fun x hx => hy x (by simp [hx])
                    refine ⟨y[a]'(hy y (by simp)) :: r, ?_⟩
                    rw [List.mapM_cons, List.getElem?_eq_getElem (hy y (by simp)), hr]; rfl
                exact this ds fun x hx => by rw [heq x hx]; exact hla a (by simp)
              obtain ⟨row, hrow⟩ := hrow
              refine ⟨row :: rows, ?_⟩
              rw [List.mapM_cons, hrow, hr]; rfl
          exact this _ fun i hi => by simpa using hi
        obtain ⟨rows, hr⟩ := hrows
        refine ⟨rows, ?_, ?_⟩
        · simp only [hds, merge]
          rw [← hds, if_neg hl, hr]
        · obtain ⟨h1, h2⟩ := (mapM_option_spec _ _ _).1 hr
          simp only [List.length_range] at h1
          have hrowspec : ∀ (i : ℕ) (row : List V), rows[i]? = some row → ds.mapM (fun x => x[i]?) = some row := by
            intro i row hrow
            have hi : i < d.length := by
              rw [← h1]; exact (List.getElem?_eq_some_iff.1 hrow).1
            exact h2 i i row (by rw [List.getElem?_range hi]) hrow
          refine ⟨fun x hx => by rw [heq x hx, h1], ?_, ?_⟩
          · intro row hrow
            obtain ⟨i, hi, rfl⟩ := List.getElem_of_mem hrow
            exact ((mapM_option_spec _ _ _).1 (hrowspec i _ (List.getElem?_eq_getElem hi))).1
          · intro i j x row hx hrow
            obtain ⟨h3, h4⟩ := (mapM_option_spec _ _ _).1 (hrowspec i row hrow)
            have hj : j < row.length := by rw [h3]; exact (List.getElem?_eq_some_iff.1 hx).1
            rw [List.getElem?_eq_getElem hj]
            exact (h4 j x _ hx (List.getElem?_eq_getElem hj)).symm
  rcases key with ⟨h1, h2⟩ | ⟨h1, rows, h2, h3⟩ | ⟨h1, h2, h3⟩
  · rw [h2]
    refine ⟨by simp [h1], by simp [h1], ?_⟩
    intro e he; exact (Except.error.inj he).symm
  · rw [h2]
    refine ⟨?_, ?_, by simp⟩
    · intro rows'
      constructor
      · intro h; obtain rfl := Except.ok.inj h; exact ⟨h1, h3⟩
      · rintro ⟨_, h4⟩; rw [transposed_unique h1 h3 h4]
    · constructor
      · intro _
        exact ⟨h1, fun d hd d' hd' => by rw [h3.1 d hd, h3.1 d' hd']⟩
      · intro _; exact ⟨rows, rfl⟩
  · rw [h2]
    obtain ⟨d, hd, d', hd', hdd⟩ := h3
    refine ⟨?_, ?_, ?_⟩
    · intro rows
      constructor
      · intro h; simp at h
      · rintro ⟨_, h4⟩
        exact absurd ((h4.1 d hd).trans (h4.1 d' hd').symm) hdd
    · constructor
      · rintro ⟨_, h⟩; simp at h
      · rintro ⟨_, h⟩; exact absurd (h d hd d' hd') hdd
    · intro e he; exact (Except.error.inj he).symm

/-! ### Concrete cases -/

example : broadcast [[1, 2, 3], [7], [4, 5, 6]] = .ok [[1, 2, 3], [7, 7, 7], [4, 5, 6]] := by decide
example : broadcast [[1], ([] : List ℕ)] = .ok [[], []] := by decide
example : broadcast [[1, 2], [1, 2, 3], [0]] = .error .valueError := by decide
example : Aligned [[1, 2, 3], [7]] [[1, 2, 3], [7, 7, 7]] 3 := (broadcast_ok_iff _ _ (by simp)).1 (show broadcast [[1, 2, 3], [7]] = .ok [[1, 2, 3], [7, 7, 7]] by decide)
  |>.elim fun N h => by
    have : N = 3 := by
      rcases h.2.2 0 _ _ rfl rfl with h | ⟨v, h, _⟩
      · exact h.1.symm
      · simp at h
    subst this; exact h
example : merge [[1, 2], [3, 4]] = .ok [[1, 3], [2, 4]] := by decide
example : merge [[1, 2], [3]] = .error .valueError := by decide

end FF.Orch
