import Verif.Orch.BroadcastProps

/-! # What one call instruction computes -/

namespace FF.Orch

variable {V W : Type}

/-! ### Specification -/

/-- The result of calling a node in context `c` on argument streams `ads` (positional ones first): one call without arguments, or one
call for each batch of the aligned streams. -/
def CallRel (sem : Sem V W) (w : W) (c : Ctx) (target : ℕ) (nargs : ℕ) (keys : List String) (ads : List (List V)) (out : List V) :
    Prop :=
  (ads = [] ∧ ∃ v, sem.call w c target [] [] = some v ∧ out = [v]) ∨
  (∃ al N rows, Aligned ads al N ∧ Transposed al rows ∧ out.length = rows.length ∧
    ∀ (j : ℕ) (row : List V) (v : V), rows[j]? = some row → out[j]? = some v →
      sem.call w c target (row.take nargs) (keys.zip (row.drop nargs)) = some v)

/-- The activations given to a delegate: the aligned streams, positional and by keyword. -/
def BundleRel (nargs : ℕ) (keys : List String) (ads : List (List V)) (b : Bundle V) : Prop :=
  (ads = [] ∧ b = ⟨[], []⟩) ∨ ∃ al N, Aligned ads al N ∧ b = ⟨al.take nargs, keys.zip (al.drop nargs)⟩

/-! ### Lemmas -/

theorem mapM_ok_iff {α β ε : Type} (f : α → Except ε β) (l : List α) (r : List β) :
    l.mapM f = .ok r ↔ List.Forall₂ (fun a b => f a = .ok b) l r := by
  induction l generalizing r with
  | nil =>
    simp only [List.mapM_nil, pure, Except.pure, Except.ok.injEq, List.forall₂_nil_left_iff]
    exact eq_comm
  | cons a as ih =>
    rw [List.mapM_cons]
    simp only [bind, Except.bind, pure, Except.pure]
    cases hfa : f a with
    | error e =>
      simp only [reduceCtorEq, false_iff]
      intro h
      cases h with
      | cons h1 h2 => rw [hfa] at h1; simp at h1
    | ok b =>
      simp only
      cases hrest : as.mapM f with
      | error e =>
        simp only [reduceCtorEq, false_iff]
        intro h
        cases h with
        | cons h1 h2 =>
          have := (ih _).2 h2
          rw [hrest] at this; simp at this
      | ok r' =>
        simp only [Except.ok.injEq]
        constructor
        · rintro rfl; exact .cons hfa ((ih _).1 hrest)
        · intro h
          cases h with
          | cons h1 h2 =>
            rw [hfa] at h1
            have := (ih _).2 h2
            rw [hrest] at this
            rw [Except.ok.inj h1, Except.ok.inj this]

theorem mapM_error {α β ε : Type} (f : α → Except ε β) (l : List α) (e : ε) (h : l.mapM f = .error e) : ∃ a ∈ l, f a = .error e := by
  induction l with
  | nil => simp [pure, Except.pure] at h
  | cons a as ih =>
    rw [List.mapM_cons] at h
    simp only [bind, Except.bind, pure, Except.pure] at h
    cases hfa : f a with
    | error e' => rw [hfa] at h; simp only [Except.error.injEq] at h; subst h; exact ⟨a, by simp, hfa⟩
    | ok b =>
      rw [hfa] at h
      simp only at h
      cases hrest : as.mapM f with
      | error e' =>
        rw [hrest] at h
        simp only [Except.error.injEq] at h
        subst h
        obtain ⟨x, hx, hfx⟩ := ih hrest
        exact ⟨x, by simp [hx], hfx⟩
      | ok r => rw [hrest] at h; simp at h

theorem forall2_append {α β : Type} {R : α → β → Prop} {l1 l2 : List α} {r : List β} :
    List.Forall₂ R (l1 ++ l2) r ↔ ∃ r1 r2, r = r1 ++ r2 ∧ List.Forall₂ R l1 r1 ∧ List.Forall₂ R l2 r2 := by
  constructor
  · intro h
    refine ⟨r.take l1.length, r.drop l1.length, (List.take_append_drop _ _).symm, ?_, ?_⟩
    · have := List.forall₂_take l1.length h
      simpa using this
    · have := List.forall₂_drop l1.length h
      simpa using this
  · rintro ⟨r1, r2, rfl, h1, h2⟩
    exact List.rel_append h1 h2

theorem forall2_zip_keys {α β γ : Type} {R : α → β → Prop} (keys : List γ) {l : List α} {r : List β} (h : List.Forall₂ R l r) :
    List.Forall₂ (fun p q => p.1 = q.1 ∧ R p.2 q.2) (keys.zip l) (keys.zip r) := by
  induction h generalizing keys with
  | nil => simp
  | cons h1 _ ih =>
    cases keys with
    | nil => simp
    | cons k ks => exact .cons ⟨rfl, h1⟩ (ih ks)

theorem gather_ok_iff (sem : Sem V W) (reg : Reg V) (c : Ctx) (args : List Ref) (kwargs : List (String × Ref)) (b : Bundle V) :
    gather sem reg c args kwargs = .ok b ↔
      ∃ ads, List.Forall₂ (fun r d => getDataset sem reg c r = .ok d) (args ++ kwargs.map (·.2)) ads ∧
        BundleRel args.length (kwargs.map (·.1)) ads b := by
  unfold gather
  simp only [bind, Except.bind]
  constructor
  · intro h
    cases h1 : args.mapM (getDataset sem reg c) with
    | error e => rw [h1] at h; simp at h
    | ok a =>
      rw [h1] at h
      simp only at h
      cases h2 : (kwargs.map (·.2)).mapM (getDataset sem reg c) with
      | error e => rw [h2] at h; simp at h
      | ok k =>
        rw [h2] at h
        simp only at h
        cases h3 : broadcast (a ++ k) with
        | error e => rw [h3] at h; simp at h
        | ok al =>
          rw [h3] at h
          simp only [Except.ok.injEq] at h
          have hf1 := (mapM_ok_iff _ _ _).1 h1
          have hf2 := (mapM_ok_iff _ _ _).1 h2
          refine ⟨a ++ k, List.rel_append hf1 hf2, ?_⟩
          have hlen : a.length = args.length := hf1.length_eq.symm
          rw [hlen] at h
          by_cases hne : a ++ k = []
          · left
            refine ⟨hne, ?_⟩
            rw [hne] at h3
            have : al = [] := by simpa [broadcast, dedupe] using h3.symm
            rw [← h, this]; simp
          · right
            obtain ⟨N, hN⟩ := (broadcast_ok_iff _ _ hne).1 h3
            exact ⟨al, N, hN, h.symm⟩
  · rintro ⟨ads, hf, hb⟩
    obtain ⟨a, k, rfl, hf1, hf2⟩ := forall2_append.1 hf
    rw [(mapM_ok_iff _ _ _).2 hf1]
    simp only
    rw [(mapM_ok_iff _ _ _).2 hf2]
    simp only
    have hlen : a.length = args.length := hf1.length_eq.symm
    rcases hb with ⟨hne, rfl⟩ | ⟨al, N, hN, rfl⟩
    · rw [hne]; simp [broadcast, dedupe]
    · have hne : a ++ k ≠ [] := by
        intro h
        obtain ⟨d, hd, _⟩ := hN.2.1
        rw [h] at hd; simp at hd
      rw [(broadcast_ok_iff _ _ hne).2 ⟨N, hN⟩]
      simp only [hlen]

theorem aligned_lengths {ads al : List (List V)} {N : ℕ} (h : Aligned ads al N) : ∀ d ∈ al, d.length = N := by
  intro d hd
  obtain ⟨i, hi, rfl⟩ := List.getElem_of_mem hd
  have hi' : i < ads.length := by rw [← h.1]; exact hi
  rcases h.2.2 i _ _ (List.getElem?_eq_getElem hi') (List.getElem?_eq_getElem hi) with h1 | ⟨v, _, h2⟩
  · rw [h1.2]; exact h1.1
  · rw [h2]; simp

theorem aligned_ne {ads al : List (List V)} {N : ℕ} (h : Aligned ads al N) : al ≠ [] := by
  intro he
  obtain ⟨d, hd, _⟩ := h.2.1
  have := h.1
  rw [he] at this
  rw [List.length_eq_zero_iff.1 this.symm] at hd
  simp at hd

theorem transposed_row {al rows : List (List V)} (h : Transposed al rows) {j : ℕ} {row : List V} (hr : rows[j]? = some row) :
    List.Forall₂ (fun d v => d[j]? = some v) al row := by
  rw [List.forall₂_iff_get]
  have hl : row.length = al.length := h.2.1 row (List.mem_of_getElem? hr)
  refine ⟨hl.symm, ?_⟩
  intro i h1 h2
  have := h.2.2 j i _ _ (List.getElem?_eq_getElem h1) hr
  simp only [List.get_eq_getElem]
  rw [← this]
  exact List.getElem?_eq_getElem h2

theorem row_ok {al : List (List V)} {row : List V} {j : ℕ} (h : List.Forall₂ (fun d v => d[j]? = some v) al row) (nargs : ℕ)
    (keys : List String) :
    Bundle.row ⟨al.take nargs, keys.zip (al.drop nargs)⟩ j = .ok (row.take nargs, keys.zip (row.drop nargs)) := by
  unfold Bundle.row
  simp only [bind, Except.bind]
  have h1 : (al.take nargs).mapM (batchAt j) = .ok (row.take nargs) := by
    rw [mapM_ok_iff]
    exact (List.forall₂_take nargs h).imp fun d v hv => by unfold batchAt; rw [hv]
  have h2 : (keys.zip (al.drop nargs)).mapM (kwBatchAt j) = .ok (keys.zip (row.drop nargs)) := by
    rw [mapM_ok_iff]
    exact (forall2_zip_keys keys (List.forall₂_drop nargs h)).imp fun p q hq => by unfold kwBatchAt; rw [hq.2, hq.1]
  rw [h1]
  simp only
  rw [h2]

theorem bundle_len {al : List (List V)} {N : ℕ} (hl : ∀ d ∈ al, d.length = N) (nargs : ℕ) (keys : List String) (hne : al ≠ [])
    (hk : al.length = nargs + keys.length) : Bundle.len ⟨al.take nargs, keys.zip (al.drop nargs)⟩ = N := by
  unfold Bundle.len
  cases al with
  | nil => exact absurd rfl hne
  | cons d ds =>
    cases nargs with
    | zero =>
      simp only [List.take_zero, List.drop_zero]
      cases keys with
      | nil => simp at hk
      | cons k ks => exact hl d (by simp)
    | succ n => exact hl d (by simp)

theorem exists_rows {al : List (List V)} {N : ℕ} (hl : ∀ d ∈ al, d.length = N) (hne : al ≠ []) :
    ∃ rows, Transposed al rows ∧ rows.length = N := by
  obtain ⟨rows, hr⟩ := (merge_spec al).2.1.2 ⟨hne, fun d hd d' hd' => by rw [hl d hd, hl d' hd']⟩
  have := ((merge_spec al).1 rows).1 hr
  obtain ⟨d, hd⟩ := List.exists_mem_of_ne_nil _ hne
  exact ⟨rows, this.2, by rw [← this.2.1 d hd, hl d hd]⟩

theorem callOne_ok_iff (sem : Sem V W) (s : St V W) (m : ℕ) (args : List Ref) (kwargs : List (String × Ref)) (c : Ctx) (out : List V) :
    callOne sem s m args kwargs c = .ok out ↔
      ∃ ads, List.Forall₂ (fun r d => getDataset sem s.reg c r = .ok d) (args ++ kwargs.map (·.2)) ads ∧
        CallRel sem s.w c m args.length (kwargs.map (·.1)) ads out := by
  unfold callOne
  simp only [bind, Except.bind]
  by_cases hempty : args = [] ∧ kwargs = []
  · obtain ⟨rfl, rfl⟩ := hempty
    have hg : gather sem s.reg c [] [] = .ok ⟨[], []⟩ := (gather_ok_iff _ _ _ _ _ _).2 ⟨[], by simp, Or.inl ⟨rfl, rfl⟩⟩
    rw [hg]
    simp only [List.isEmpty_nil, Bool.and_self, if_true, List.map_nil, List.append_nil, callTarget]
    constructor
    · intro h
      refine ⟨[], by simp, Or.inl ⟨rfl, ?_⟩⟩
      cases hc : sem.call s.w c m [] [] with
      | none => rw [hc] at h; simp at h
      | some v => rw [hc] at h; simp only [Except.ok.injEq] at h; exact ⟨v, rfl, h.symm⟩
    · rintro ⟨ads, hf, hcr⟩
      have : ads = [] := by simpa using hf
      subst this
      rcases hcr with ⟨_, v, h1, rfl⟩ | ⟨al, N, rows, h1, _⟩
      · rw [h1]
      · obtain ⟨d, hd, _⟩ := h1.2.1; simp at hd
  · have hif : (args.isEmpty && kwargs.isEmpty) = false := by
      cases args with
      | nil =>
        cases kwargs with
        | nil => simp at hempty
        | cons => rfl
      | cons => rfl
    have hnil : ∀ ads, List.Forall₂ (fun r d => getDataset sem s.reg c r = .ok d) (args ++ kwargs.map (·.2)) ads → ads ≠ [] := by
      rintro ads hf rfl
      have := hf.length_eq
      simp only [List.length_append, List.length_map, List.length_nil] at this
      exact hempty ⟨List.length_eq_zero_iff.1 (by omega), List.length_eq_zero_iff.1 (by omega)⟩
    -- the calls for an aligned bundle
    have calls : ∀ (ads al rows : List (List V)) (N : ℕ), List.Forall₂ (fun r d => getDataset sem s.reg c r = .ok d) (args ++ kwargs.map (·.2)) ads →
        Aligned ads al N → Transposed al rows →
        ((List.range (Bundle.len ⟨al.take args.length, (kwargs.map (·.1)).zip (al.drop args.length)⟩)).mapM
          (callBatch sem s.w c m ⟨al.take args.length, (kwargs.map (·.1)).zip (al.drop args.length)⟩) = .ok out ↔
        out.length = rows.length ∧ ∀ (j : ℕ) (row : List V) (v : V), rows[j]? = some row → out[j]? = some v →
          sem.call s.w c m (row.take args.length) ((kwargs.map (·.1)).zip (row.drop args.length)) = some v) := by
      intro ads al rows N hf hal htr
      have hne := aligned_ne hal
      have hlen : al.length = args.length + (kwargs.map (·.1)).length := by
        rw [hal.1, ← hf.length_eq]; simp
      rw [bundle_len (aligned_lengths hal) _ _ hne hlen]
      have hrl : rows.length = N := by
        obtain ⟨d, hd⟩ := List.exists_mem_of_ne_nil _ hne
        rw [← htr.1 d hd, aligned_lengths hal d hd]
      rw [mapM_ok_iff, List.forall₂_iff_get]
      have hrow : ∀ (j : ℕ) (hj : j < rows.length), Bundle.row ⟨al.take args.length, (kwargs.map (·.1)).zip (al.drop args.length)⟩ j =
          .ok (rows[j].take args.length, (kwargs.map (·.1)).zip (rows[j].drop args.length)) := fun j hj =>
        row_ok (transposed_row htr (List.getElem?_eq_getElem hj)) _ _
      constructor
      · rintro ⟨h1, h2⟩
        rw [List.length_range] at h1
        refine ⟨by omega, ?_⟩
        intro j row v hr hv
        obtain ⟨hj, rfl⟩ := List.getElem?_eq_some_iff.1 hr
        obtain ⟨hj', rfl⟩ := List.getElem?_eq_some_iff.1 hv
        have := h2 j (by simpa using by omega) hj'
        simp only [List.get_eq_getElem, List.getElem_range] at this
        unfold callBatch callTarget at this
        rw [hrow j hj] at this
        simp only at this
        split at this
        · next v' hv' => rw [hv']; simpa using this
        · simp at this
      · rintro ⟨h1, h2⟩
        refine ⟨by simp; omega, ?_⟩
        intro j hj hj'
        simp only [List.length_range] at hj
        simp only [List.get_eq_getElem, List.getElem_range]
        unfold callBatch callTarget
        rw [hrow j (by omega)]
        simp only
        rw [h2 j _ _ (List.getElem?_eq_getElem (by omega)) (List.getElem?_eq_getElem hj')]
    constructor
    · intro h
      cases hg : gather sem s.reg c args kwargs with
      | error e => rw [hg] at h; simp at h
      | ok b =>
        rw [hg] at h
        simp only [hif, Bool.false_eq_true, if_false] at h
        obtain ⟨ads, hf, hb⟩ := (gather_ok_iff _ _ _ _ _ _).1 hg
        refine ⟨ads, hf, ?_⟩
        rcases hb with ⟨h1, _⟩ | ⟨al, N, hal, rfl⟩
        · exact absurd h1 (hnil ads hf)
        · right
          obtain ⟨rows, htr, _⟩ := exists_rows (aligned_lengths hal) (aligned_ne hal)
          refine ⟨al, N, rows, hal, htr, ?_⟩
          exact (calls ads al rows N hf hal htr).1 h
    · rintro ⟨ads, hf, hcr⟩
      rcases hcr with ⟨h1, _⟩ | ⟨al, N, rows, hal, htr, hout⟩
      · exact absurd h1 (hnil ads hf)
      · have hg := (gather_ok_iff sem s.reg c args kwargs _).2 ⟨ads, hf, Or.inr ⟨al, N, hal, rfl⟩⟩
        rw [hg]
        simp only [hif, Bool.false_eq_true, if_false]
        exact (calls ads al rows N hf hal htr).2 hout

end FF.Orch
