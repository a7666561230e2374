import Verif.Orch.Engine
import Mathlib.Data.List.Nodup
import Mathlib.Data.List.Basic

/-! # Binding graph inputs (C24) -/

namespace FF.Orch

variable {V W : Type}

/-! ### Specification -/

/-- The calls Python would accept for a function with these parameters and no defaults. -/
def Acceptable (names : List String) (args : List (RawInput V)) (kwargs : List (String × RawInput V)) : Prop :=
  args.length ≤ names.length ∧ (∀ kv ∈ kwargs, kv.1 ∈ names) ∧
  (∀ kv ∈ kwargs, kv.1 ∉ names.take args.length) ∧
  ∀ n ∈ names, n ∈ names.take args.length ∨ ∃ v, (n, v) ∈ kwargs

/-- The value the call gives to parameter `n`. -/
def Gives (names : List String) (args : List (RawInput V)) (kwargs : List (String × RawInput V)) (n : String) (v : RawInput V) : Prop :=
  (∃ i : ℕ, names[i]? = some n ∧ args[i]? = some v) ∨ (n, v) ∈ kwargs

/-! ### Lemmas -/

theorem bindStep_error (names : List String) (kwargs : List (String × RawInput V)) (e : EErr) :
    kwargs.foldl (bindStep names) (.error e) = .error e := by
  induction kwargs with
  | nil => rfl
  | cons a as ih => simpa [bindStep] using ih

theorem bindStep_fold (names : List String) (kwargs inputs : List (String × RawInput V)) (hk : (kwargs.map (·.1)).Nodup) :
    kwargs.foldl (bindStep names) (.ok inputs) =
      open Classical in if ∀ kv ∈ kwargs, kv.1 ∈ names ∧ kv.1 ∉ inputs.map (·.1) then .ok (inputs ++ kwargs) else .error .typeError := by
  classical
  induction kwargs generalizing inputs with
  | nil => simp
  | cons a as ih =>
    rw [List.map_cons, List.nodup_cons] at hk
    rw [List.foldl_cons]
    by_cases h1 : a.1 ∈ names
    · by_cases h2 : a.1 ∈ inputs.map (·.1)
      · have : bindStep names (.ok inputs) a = .error .typeError := by simp only [bindStep]; rw [if_neg (by simpa using h1), if_pos h2]
        rw [this, bindStep_error, if_neg]
        intro h; exact (h a (by simp)).2 h2
      · have : bindStep names (.ok inputs) a = .ok (inputs ++ [a]) := by
          simp only [bindStep]; rw [if_neg (by simpa using h1), if_neg h2]
        rw [this, ih _ hk.2]
        have hiff : (∀ kv ∈ as, kv.1 ∈ names ∧ kv.1 ∉ (inputs ++ [a]).map (·.1)) ↔
            ∀ kv ∈ a :: as, kv.1 ∈ names ∧ kv.1 ∉ inputs.map (·.1) := by
          constructor
          · intro h kv hkv
            rcases List.mem_cons.1 hkv with rfl | hkv
            · exact ⟨h1, h2⟩
            · refine ⟨(h kv hkv).1, fun hc => (h kv hkv).2 ?_⟩
              rw [List.map_append, List.mem_append]; exact Or.inl hc
          · intro h kv hkv
            refine ⟨(h kv (by simp [hkv])).1, ?_⟩
            rw [List.map_append, List.mem_append]
            rintro (hc | hc)
            · exact (h kv (by simp [hkv])).2 hc
            · have : kv.1 = a.1 := by simpa using hc
              exact hk.1 (by rw [← this]; exact List.mem_map_of_mem hkv)
        by_cases hc : ∀ kv ∈ a :: as, kv.1 ∈ names ∧ kv.1 ∉ inputs.map (·.1)
        · rw [if_pos (hiff.2 hc), if_pos hc]; simp
        · rw [if_neg (fun h => hc (hiff.1 h)), if_neg hc]
    · have : bindStep names (.ok inputs) a = .error .typeError := by simp only [bindStep]; rw [if_pos h1]
      rw [this, bindStep_error, if_neg]
      intro h; exact h1 (h a (by simp)).1

theorem zip_take_keys (names : List String) (args : List (RawInput V)) (h : args.length ≤ names.length) :
    ((names.take args.length).zip args).map (·.1) = names.take args.length := by
  rw [show (fun x : String × RawInput V => x.1) = Prod.fst from rfl, List.map_fst_zip]
  simp; omega

theorem mem_zip_take (names : List String) (args : List (RawInput V)) (n : String) (v : RawInput V) :
    (n, v) ∈ (names.take args.length).zip args ↔ ∃ i : ℕ, names[i]? = some n ∧ args[i]? = some v := by
  rw [List.mem_iff_getElem?]
  constructor
  · rintro ⟨i, h⟩
    rw [List.getElem?_zip_eq_some] at h
    refine ⟨i, ?_, h.2⟩
    have := h.1
    rw [List.getElem?_take] at this
    split_ifs at this
    exact this
  · rintro ⟨i, h1, h2⟩
    refine ⟨i, ?_⟩
    rw [List.getElem?_zip_eq_some]
    refine ⟨?_, h2⟩
    rw [List.getElem?_take, if_pos (List.getElem?_eq_some_iff.1 h2).1]
    exact h1

theorem bind_cases (names : List String) (args : List (RawInput V)) (kwargs : List (String × RawInput V))
    (hk : (kwargs.map (·.1)).Nodup) :
    (Acceptable names args kwargs ∧ bindInputs names args kwargs = .ok ((names.take args.length).zip args ++ kwargs)) ∨
    (¬ Acceptable names args kwargs ∧ bindInputs names args kwargs = .error .typeError) := by
  unfold bindInputs
  by_cases h1 : args.length > names.length
  · right
    rw [if_pos h1]
    exact ⟨fun h => by have := h.1; omega, rfl⟩
  · rw [if_neg h1]
    have hkeys := zip_take_keys names args (by omega)
    have hfold := bindStep_fold names kwargs ((names.take args.length).zip args) hk
    rw [hkeys] at hfold
    simp only [hfold]
    by_cases h2 : ∀ kv ∈ kwargs, kv.1 ∈ names ∧ kv.1 ∉ names.take args.length
    · rw [if_pos h2]
      dsimp only
      by_cases h3 : (names.any fun n => n ∉ ((names.take args.length).zip args ++ kwargs).map (·.1)) = true
      · right
        rw [if_pos h3]
        refine ⟨fun h => ?_, rfl⟩
        rw [List.any_eq_true] at h3
        obtain ⟨n, hn, hn2⟩ := h3
        simp only [decide_eq_true_eq, List.map_append, hkeys, List.mem_append, not_or] at hn2
        rcases h.2.2.2 n hn with h4 | ⟨v, h4⟩
        · exact hn2.1 h4
        · exact hn2.2 (List.mem_map_of_mem (f := fun x : String × RawInput V => x.1) h4)
      · left
        rw [if_neg h3]
        refine ⟨⟨by omega, fun kv hkv => (h2 kv hkv).1, fun kv hkv => (h2 kv hkv).2, ?_⟩, rfl⟩
        intro n hn
        rw [List.any_eq_true] at h3
        push Not at h3
        have : n ∈ ((names.take args.length).zip args ++ kwargs).map (·.1) := by
          by_contra hc
          exact h3 n hn (by simpa using hc)
        rw [List.map_append, hkeys, List.mem_append] at this
        rcases this with h4 | h4
        · exact Or.inl h4
        · obtain ⟨⟨k, v⟩, h5, rfl⟩ := List.mem_map.1 h4
          exact Or.inr ⟨v, h5⟩
    · right
      rw [if_neg h2]
      refine ⟨fun h => h2 fun kv hkv => ⟨h.2.1 kv hkv, h.2.2.1 kv hkv⟩, rfl⟩

/-! ### Properties -/

/-- **C24.** The accepted calls are exactly those Python would accept; every other call is a `TypeError`. -/
theorem bind_accepts_iff (names : List String) (args : List (RawInput V)) (kwargs : List (String × RawInput V))
    (hk : (kwargs.map (·.1)).Nodup) :
    ((∃ b, bindInputs names args kwargs = .ok b) ↔ Acceptable names args kwargs) ∧
    (¬ Acceptable names args kwargs → bindInputs names args kwargs = .error .typeError) := by
  rcases bind_cases names args kwargs hk with ⟨h1, h2⟩ | ⟨h1, h2⟩
  · rw [h2]; exact ⟨⟨fun _ => h1, fun _ => ⟨_, rfl⟩⟩, fun h => absurd h1 h⟩
  · rw [h2]; exact ⟨⟨fun ⟨_, h⟩ => by simp at h, fun h => absurd h h1⟩, fun _ => rfl⟩

/-- **C24.** An accepted call binds every input exactly once, to the value the call gives it. -/
theorem bind_once (names : List String) (hn : names.Nodup) (args : List (RawInput V)) (kwargs b : List (String × RawInput V))
    (hk : (kwargs.map (·.1)).Nodup) (h : bindInputs names args kwargs = .ok b) :
    (b.map (·.1)).Perm names ∧ ∀ n v, (n, v) ∈ b ↔ Gives names args kwargs n v := by
  rcases bind_cases names args kwargs hk with ⟨h1, h2⟩ | ⟨h1, h2⟩
  · rw [h2] at h
    obtain rfl := Except.ok.inj h
    constructor
    · rw [List.perm_ext_iff_of_nodup _ hn]
      · intro n
        rw [List.map_append, zip_take_keys _ _ h1.1, List.mem_append]
        constructor
        · rintro (h3 | h3)
          · exact List.mem_of_mem_take h3
          · obtain ⟨kv, h4, rfl⟩ := List.mem_map.1 h3
            exact h1.2.1 kv h4
        · intro h3
          rcases h1.2.2.2 n h3 with h4 | ⟨v, h4⟩
          · exact Or.inl h4
          · exact Or.inr (List.mem_map_of_mem (f := fun x : String × RawInput V => x.1) h4)
      · rw [List.map_append, zip_take_keys _ _ h1.1, List.nodup_append]
        refine ⟨hn.sublist (List.take_sublist _ _), hk, ?_⟩
        rintro a ha c hc rfl
        obtain ⟨kv, h4, rfl⟩ := List.mem_map.1 hc
        exact h1.2.2.1 kv h4 ha
    · intro n v
      rw [List.mem_append, mem_zip_take]
      rfl
  · rw [h2] at h; simp at h

theorem lookup_set (s : Streams V) (c c' : Ctx) (x : Cell V) :
    (s.set c x).lookup c' = if c' = c then some x else s.lookup c' := by
  induction s with
  | nil =>
    simp only [Streams.set, List.lookup_cons, List.lookup_nil]
    by_cases h : c' = c
    · simp [h]
    · have : (c' == c) = false := by simpa using h
      simp [h, this]
  | cons p rest ih =>
    obtain ⟨k, y⟩ := p
    simp only [Streams.set]
    by_cases hk : k = c
    · subst hk
      simp only [if_true, List.lookup_cons]
      by_cases h : c' = k
      · simp [h]
      · have : (c' == k) = false := by simpa using h
        simp [h, this]
    · rw [if_neg hk]
      simp only [List.lookup_cons]
      by_cases h : c' = k
      · subst h; simp [hk]
      · have : (c' == k) = false := by simpa using h
        simp only [this, ih]

/-- Storing one value under several contexts. -/
theorem store_contexts (cs : List Ctx) (reg : Reg V) (r : Ref) (x : Cell V) :
    (∀ r', r' ≠ r → (cs.foldl (fun reg c => reg.store r c x) reg) r' = reg r') ∧
    (cs = [] → (cs.foldl (fun reg c => reg.store r c x) reg) = reg) ∧
    (cs ≠ [] → ∃ s, (cs.foldl (fun reg c => reg.store r c x) reg) r = some s ∧
      ∀ c, s.lookup c = if c ∈ cs then some x else ((reg r).getD []).lookup c) := by
  induction cs generalizing reg with
  | nil => simp
  | cons a as ih =>
    obtain ⟨h1, h2, h3⟩ := ih (reg.store r a x)
    have hself : reg.store r a x r = some (((reg r).getD []).set a x) := by simp [Reg.store]
    refine ⟨?_, by simp, fun _ => ?_⟩
    · intro r' hr'
      rw [List.foldl_cons, h1 r' hr']
      simp [Reg.store, hr']
    · rw [List.foldl_cons]
      by_cases has : as = []
      · subst has
        refine ⟨_, hself, ?_⟩
        intro c
        rw [lookup_set]; simp
      · obtain ⟨s, hs, hl⟩ := h3 has
        refine ⟨s, hs, ?_⟩
        intro c
        rw [hl, hself, Option.getD_some, lookup_set]
        by_cases hc : c ∈ as
        · simp [hc]
        · simp only [hc, if_false, List.mem_cons, or_false]

/-- **C24.** After binding, every input is available under every context of the program with exactly the batches it was given, and
nothing else is in the register. -/
theorem prepare_register_spec (names : List String) (hn : names.Nodup) (args : List (RawInput V)) (kwargs : List (String × RawInput V))
    (hk : (kwargs.map (·.1)).Nodup) (cs : List Ctx) (reg : Reg V) (h : prepareRegister names args kwargs cs = .ok reg) :
    (∀ n v, Gives names args kwargs n v → ∀ c ∈ cs, reg.load (.input n) c = .ok (.data v.dataset)) ∧
    (∀ r c x, reg.load r c = .ok x → c ∈ cs ∧ ∃ n v, r = .input n ∧ Gives names args kwargs n v) ∧
    (∀ r, (reg r).isSome → cs ≠ [] ∧ ∃ n ∈ names, r = .input n) := by
  unfold prepareRegister at h
  cases hb : bindInputs names args kwargs with
  | error e => rw [hb] at h; simp at h
  | ok b =>
    rw [hb] at h
    have h := Except.ok.inj h
    obtain ⟨hperm, hmem⟩ := bind_once names hn args kwargs b hk hb
    have hnd : (b.map (·.1)).Nodup := hperm.nodup_iff.2 hn
    -- the fold over bindings
    have key : ∀ (l : List (String × RawInput V)) (reg0 : Reg V), (l.map (·.1)).Nodup →
        (∀ p ∈ l, reg0 (.input p.1) = none) →
        let R := l.foldl (fun reg p => cs.foldl (fun reg c => reg.store (.input p.1) c (.data p.2.dataset)) reg) reg0
        (∀ r, (∀ p ∈ l, r ≠ .input p.1) → R r = reg0 r) ∧
        (cs ≠ [] → ∀ p ∈ l, ∃ s, R (.input p.1) = some s ∧ ∀ c, s.lookup c = if c ∈ cs then some (.data p.2.dataset) else none) ∧
        (cs = [] → R = reg0) := by
      intro l
      induction l with
      | nil => intro reg0 _ _; simp
      | cons p l ih =>
        intro reg0 hnd0 hnone
        rw [List.map_cons, List.nodup_cons] at hnd0
        obtain ⟨s1, s2, s3⟩ := store_contexts cs reg0 (.input p.1) (.data p.2.dataset)
        have hpl : ∀ q ∈ l, q.1 ≠ p.1 := fun q hq he => hnd0.1 (by rw [← he]; exact List.mem_map_of_mem hq)
        obtain ⟨i1, i2, i3⟩ := ih (cs.foldl (fun reg c => reg.store (.input p.1) c (.data p.2.dataset)) reg0) hnd0.2 (by
          intro q hq
          rw [s1 _ (by simpa using hpl q hq)]
          exact hnone q (by simp [hq]))
        simp only [List.foldl_cons]
        refine ⟨?_, ?_, ?_⟩
        · intro r hr
          rw [i1 r (fun q hq => hr q (by simp [hq])), s1 r (hr p (by simp))]
        · intro hcs q hq
          rcases List.mem_cons.1 hq with rfl | hq
          · obtain ⟨s, hs, hl⟩ := s3 hcs
            refine ⟨s, ?_, ?_⟩
            · rw [i1 _ (fun q' hq' => by simpa using (hpl q' hq').symm), hs]
            · intro c; rw [hl, hnone q (by simp)]; simp
          · exact i2 hcs q hq
        · intro hcs
          rw [i3 hcs, s2 hcs]
    obtain ⟨k1, k2, k3⟩ := key b (fun _ => none) hnd (by simp)
    rw [h] at k1 k2 k3
    refine ⟨?_, ?_, ?_⟩
    · intro n v hg c hc
      obtain ⟨s, hs, hl⟩ := k2 (List.ne_nil_of_mem hc) (n, v) ((hmem n v).2 hg)
      unfold Reg.load
      simp only at hs
      simp only [hs, hl, if_pos hc]
    · intro r c x hl
      unfold Reg.load at hl
      by_cases hr : ∀ p ∈ b, r ≠ .input p.1
      · rw [k1 r hr] at hl; simp at hl
      · push Not at hr
        obtain ⟨p, hp, rfl⟩ := hr
        by_cases hcs : cs = []
        · rw [k3 hcs] at hl; simp at hl
        · obtain ⟨s, hs, hls⟩ := k2 hcs p hp
          simp only [hs, hls] at hl
          by_cases hc : c ∈ cs
          · exact ⟨hc, p.1, p.2, rfl, (hmem _ _).1 hp⟩
          · simp [hc] at hl
    · intro r hr
      by_cases hr2 : ∀ p ∈ b, r ≠ .input p.1
      · rw [k1 r hr2] at hr; simp at hr
      · push Not at hr2
        obtain ⟨p, hp, rfl⟩ := hr2
        refine ⟨?_, p.1, hperm.subset (List.mem_map_of_mem hp), rfl⟩
        intro hcs
        rw [k3 hcs] at hr; simp at hr

/-! ### Concrete cases -/

example : (bindInputs ["x", "y", "z"] [.single 1] [("z", .batches [4, 5]), ("y", .single 2)]).toOption.map
    (List.map fun p => (p.1, p.2.dataset)) = some [("x", [1]), ("z", [4, 5]), ("y", [2])] := by decide
example : Acceptable ["x", "y", "z"] [.single 1] [("z", .batches [4, 5]), ("y", .single 2)] :=
  (bind_accepts_iff _ _ _ (by decide)).1.1 ⟨_, rfl⟩
example : (bindInputs ["x", "y"] [.single 1] [("x", .single 2)]).toOption.isNone := by decide
example : (bindInputs ["x", "y"] [.single 1] ([] : List (String × RawInput ℕ))).toOption.isNone := by decide

end FF.Orch
