import Verif.Orch.ExecProps
import Verif.Orch.ExecTotal
import Verif.Orch.ExecCases

/-! # Running only the optimizations (C22) -/

namespace FF.Orch

variable {V W : Type}

/-! ### Model -/

/-- `InstructionEngine.run` (`instruction_engine.py:743-755`) on any program: inputs are stored for the contexts of that program. -/
def runProgram (sem : Sem V W) (names : List String) (is : List Instr) (w : W) (args : List (RawInput V))
    (kwargs : List (String × RawInput V)) : W × Except EErr (Option (Out V)) :=
  match prepareRegister names args kwargs (programContexts is) with
  | .error e => (w, .error e)
  | .ok reg => let r := run sem is ⟨w, reg⟩; (r.1.w, r.2)

/-- The run inside `layerwise_optimize` without offloading (`orchestration.py:140-146`). -/
def runOptimizations (sem : Sem V W) (g : Graph) (order : List ℕ) (w : W) (args : List (RawInput V))
    (kwargs : List (String × RawInput V)) : W × Except EErr (Option (Out V)) :=
  runProgram sem g.inputs (lifetimePass (optimizationOnly (schedule g order))) w args kwargs

/-! ### Specification -/

/-- A call of an optimization delegate: the function, the module, and the activations it is given for each context. -/
abbrev Optimization (V : Type) := ℕ × ℕ × List (Bundle V)

/-- The same modules and functions, with a record of the delegates' calls. -/
def recorded (sem : Sem V W) : Sem V (W × List (Optimization V)) where
  constVal := sem.constVal
  item := sem.item
  getattr := sem.getattr
  call w := sem.call w.1
  optimize w fn m bs := (sem.optimize w.1 fn m bs).map fun w' => (w', w.2 ++ [(fn, m, bs)])
  move := sem.move
  moveModule w d m := (sem.moveModule w.1 d m, w.2)

/-- The program calls a delegate. -/
def HasOptimization (is : List Instr) : Prop := ∃ m args kwargs d, Instr.optimize m args kwargs d ∈ is

/-! ### Lemmas -/

/-- The entry in the pruned run is the entry in the full run restricted to the contexts `C`. -/
def Restricts (C : List Ctx) (a b : Option (Streams V)) : Prop :=
  (a = none ∧ b = none) ∨ ∃ s s', a = some s ∧ b = some s' ∧ (s.map (·.1)).Nodup ∧ (s'.map (·.1)).Nodup ∧ (s ≠ [] → s' ≠ []) ∧
    (∀ c ∈ C, s'.lookup c = s.lookup c) ∧ ∀ c ∉ C, s'.lookup c = none

theorem Restricts.getD {C : List Ctx} {a b : Option (Streams V)} (h : Restricts C a b) :
    ((a.getD []).map (·.1)).Nodup ∧ ((b.getD []).map (·.1)).Nodup ∧ (a.getD [] ≠ [] → b.getD [] ≠ []) ∧
    (∀ c ∈ C, (b.getD []).lookup c = (a.getD []).lookup c) ∧ ∀ c ∉ C, (b.getD []).lookup c = none := by
  rcases h with ⟨rfl, rfl⟩ | ⟨s, s', rfl, rfl, h⟩
  · simp
  · exact h

theorem set_ne_nil (s : Streams V) (c : Ctx) (x : Cell V) : s.set c x ≠ [] := by
  cases s with
  | nil => simp [Streams.set]
  | cons p rest =>
    obtain ⟨k, y⟩ := p
    simp only [Streams.set]
    split_ifs <;> simp

theorem Restricts.set {C : List Ctx} {a b : Option (Streams V)} (h : Restricts C a b) {c : Ctx} (hc : c ∈ C) (x : Cell V) :
    Restricts C (some ((a.getD []).set c x)) (some ((b.getD []).set c x)) := by
  obtain ⟨h1, h2, _, h4, h5⟩ := h.getD
  refine Or.inr ⟨_, _, rfl, rfl, set_nodup h1 _ _, set_nodup h2 _ _, fun _ => set_ne_nil _ _ _, ?_, ?_⟩
  · intro c' hc'
    rw [lookup_set, lookup_set, h4 c' hc']
  · intro c' hc'
    rw [lookup_set, if_neg (by rintro rfl; exact hc' hc), h5 c' hc']

theorem Restricts.setSame {C : List Ctx} (m : Streams V) (hm : ∀ c ∈ m.map (·.1), c ∈ C) :
    ∀ {a b : Option (Streams V)}, Restricts C a b → Restricts C (some ((a.getD []).setAll m)) (some ((b.getD []).setAll m)) := by
  induction m with
  | nil =>
    intro a b h
    exact Or.inr ⟨_, _, rfl, rfl, h.getD⟩
  | cons p m ih =>
    intro a b h
    have h1 := h.set (hm p.1 (by simp)) p.2
    have h2 := ih (fun c hc => hm c (List.mem_cons_of_mem _ hc)) h1
    exact h2

theorem lookup_setAll (m : Streams V) (hm : (m.map (·.1)).Nodup) (s : Streams V) (c : Ctx) :
    (s.setAll m).lookup c = ((m.lookup c).or (s.lookup c)) := by
  induction m generalizing s with
  | nil => simp [Streams.setAll]
  | cons p m ih =>
    obtain ⟨k, x⟩ := p
    rw [List.map_cons, List.nodup_cons] at hm
    have : s.setAll ((k, x) :: m) = (s.set k x).setAll m := rfl
    rw [this, ih hm.2, lookup_set, List.lookup_cons]
    by_cases hck : c = k
    · subst hck
      have : m.lookup c = none := by
        cases hl : m.lookup c with
        | none => rfl
        | some y => exact absurd (List.mem_map.2 ⟨_, mem_of_lookup hl, rfl⟩) hm.1
      simp [this]
    · have : (c == k) = false := by simpa using hck
      simp [this, hck]

theorem setAll_ne_nil {s m : Streams V} (h : m ≠ [] ∨ s ≠ []) : s.setAll m ≠ [] := by
  obtain ⟨c, hc⟩ : ∃ c, c ∈ (s.setAll m).map (·.1) := by
    rcases h with h | h
    · obtain ⟨p, hp⟩ := List.exists_mem_of_ne_nil _ h
      exact ⟨p.1, setAll_cover.2 (Or.inl (List.mem_map.2 ⟨p, hp, rfl⟩))⟩
    · obtain ⟨p, hp⟩ := List.exists_mem_of_ne_nil _ h
      exact ⟨p.1, setAll_cover.2 (Or.inr (List.mem_map.2 ⟨p, hp, rfl⟩))⟩
  intro he
  rw [he] at hc
  simp at hc

theorem Restricts.setBoth {C : List Ctx} {a b : Option (Streams V)} (h : Restricts C a b) {m m' : Streams V}
    (hm : Restricts C (some m) (some m')) : Restricts C (some ((a.getD []).setAll m)) (some ((b.getD []).setAll m')) := by
  obtain ⟨h1, h2, h3, h4, h5⟩ := h.getD
  obtain ⟨m1, m2, m3, m4, m5⟩ := hm.getD
  simp only [Option.getD_some] at m1 m2 m3 m4 m5
  refine Or.inr ⟨_, _, rfl, rfl, setAll_nodup h1 _, setAll_nodup h2 _, ?_, ?_, ?_⟩
  · intro hne
    apply setAll_ne_nil
    by_cases hmn : m = []
    · subst hmn
      exact Or.inr (h3 hne)
    · exact Or.inl (m3 hmn)
  · intro c hc
    rw [lookup_setAll _ m2, lookup_setAll _ m1, m4 c hc, h4 c hc]
  · intro c hc
    rw [lookup_setAll _ m2, m5 c hc, h5 c hc]
    rfl

/-- References other than constants: those whose register entry is read. -/
def Ref.NotConst (r : Ref) : Prop := ∀ k, r ≠ .const k

theorem getDataset_restrict (sem : Sem V W) {C : List Ctx} {reg reg' : Reg V} {c : Ctx} (hc : c ∈ C) (r : Ref)
    (h : r.NotConst → Restricts C (reg r) (reg' r)) : getDataset sem reg' c r = getDataset sem reg c r := by
  have key : r.NotConst → reg'.load r c = reg.load r c := by
    intro hr
    unfold Reg.load
    rcases h hr with ⟨h1, h2⟩ | ⟨s, s', h1, h2, _, _, _, h3, _⟩
    · rw [h1, h2]
    · rw [h1, h2]
      simp only [h3 c hc]
  cases r with
  | const k => rfl
  | node id => simp only [getDataset, key (by intro k; simp)]
  | input x => simp only [getDataset, key (by intro k; simp)]
  | attr r a => simp only [getDataset, key (by intro k; simp)]

theorem gather_restrict (sem : Sem V W) {C : List Ctx} {reg reg' : Reg V} {c : Ctx} (hc : c ∈ C) (args : List Ref)
    (kwargs : List (String × Ref)) (h : ∀ r ∈ args ++ kwargs.map (·.2), r.NotConst → Restricts C (reg r) (reg' r)) :
    gather sem reg' c args kwargs = gather sem reg c args kwargs := by
  unfold gather
  rw [mapM_congr_except args fun x hx => getDataset_restrict sem hc x (h x (by simp [hx])),
    mapM_congr_except (kwargs.map (·.2)) fun x hx => getDataset_restrict sem hc x (h x (List.mem_append.2 (Or.inr hx)))]

theorem callAll_restrict (sem : Sem V W) {C : List Ctx} {s s' : St V W} (m : ℕ) (args : List Ref) (kwargs : List (String × Ref))
    (cs : List Ctx) (hcs : ∀ c ∈ cs, c ∈ C) (hw : s.w = s'.w)
    (h : ∀ r ∈ args ++ kwargs.map (·.2), r.NotConst → Restricts C (s.reg r) (s'.reg r)) :
    callAll sem s' m args kwargs cs = callAll sem s m args kwargs cs := by
  induction cs with
  | nil => rfl
  | cons c cs ih =>
    simp only [callAll, ih fun c hc => hcs c (by simp [hc])]
    unfold callOne
    rw [gather_restrict sem (hcs c (by simp)) args kwargs h, hw]

theorem callAll_keys {sem : Sem V W} {s : St V W} {m : ℕ} {args : List Ref} {kwargs : List (String × Ref)} {cs : List Ctx}
    {res : Streams V} (h : callAll sem s m args kwargs cs = .ok res) : res.map (·.1) = cs := by
  induction cs generalizing res with
  | nil => simp only [callAll, Except.ok.injEq] at h; rw [← h]; rfl
  | cons c cs ih =>
    simp only [callAll, bind, Except.bind] at h
    cases h1 : callOne sem s m args kwargs c with
    | error e => rw [h1] at h; simp at h
    | ok d =>
      rw [h1] at h
      simp only at h
      cases h2 : callAll sem s m args kwargs cs with
      | error e => rw [h2] at h; simp at h
      | ok rest =>
        rw [h2] at h
        simp only [Except.ok.injEq] at h
        rw [← h, List.map_cons, ih h2]

theorem loadAll_of {sem : Sem V W} {a : Attr} {t : Ref} (str m : Streams V) (reg : Reg V)
    (h : List.Forall₂ (fun p q => ∃ d d', p.2 = .data d ∧ sem.extract a d = some d' ∧ q = (p.1, .data d')) str m) :
    loadAll sem a t str reg = .ok (m.foldl (fun reg q => reg.store t q.1 q.2) reg) := by
  induction h generalizing reg with
  | nil => rfl
  | @cons p q _ _ h _ ih =>
    obtain ⟨d, d', hp, hx, rfl⟩ := h
    obtain ⟨c, x⟩ := p
    simp only at hp
    subst hp
    simp only [loadAll, hx, List.foldl_cons]
    exact ih _

/-- The attribute of a dataset. -/
def Extracts (sem : Sem V W) (a : Attr) (x y : Cell V) : Prop := ∃ d d', x = .data d ∧ sem.extract a d = some d' ∧ y = .data d'

theorem forall2_lookup {P : Cell V → Cell V → Prop} {s m : Streams V}
    (h : List.Forall₂ (fun p q => p.1 = q.1 ∧ P p.2 q.2) s m) (c : Ctx) :
    (s.lookup c = none ∧ m.lookup c = none) ∨ ∃ x y, s.lookup c = some x ∧ m.lookup c = some y ∧ P x y := by
  induction h with
  | nil => simp
  | @cons p q _ _ h _ ih =>
    obtain ⟨k, x⟩ := p
    obtain ⟨k', y⟩ := q
    obtain ⟨hkk, hP⟩ := h
    simp only at hkk hP
    subst hkk
    simp only [List.lookup_cons]
    by_cases hc : c = k
    · subst hc; right; simp [hP]
    · have : (c == k) = false := by simpa using hc
      simpa [this] using ih

/-- An attribute loaded from a restricted entry. -/
theorem load_restrict {sem : Sem V W} {C : List Ctx} {a : Attr} {t : Ref} {s s' : Streams V} (h : Restricts C (some s) (some s'))
    {reg reg1 reg' : Reg V} (hl : loadAll sem a t s reg = .ok reg1) :
    ∃ reg1', loadAll sem a t s' reg' = .ok reg1' ∧
      ∀ r, Restricts C (reg r) (reg' r) → Restricts C (reg1 r) (reg1' r) := by
  obtain ⟨m, hm, rfl⟩ := loadAll_ok hl
  obtain ⟨n1, n2, n3, n4, n5⟩ := h.getD
  simp only [Option.getD_some] at n1 n2 n3 n4 n5
  have hk : List.Forall₂ (fun p q : Ctx × Cell V => p.1 = q.1 ∧ Extracts sem a p.2 q.2) s m :=
    hm.imp fun p q ⟨d, d', h1, h2, h3⟩ => by subst h3; exact ⟨rfl, d, d', h1, h2, rfl⟩
  -- every entry of the restricted stream is an entry of the full one
  have hsub : ∀ p ∈ s', ∃ d d', p.2 = Cell.data d ∧ sem.extract a d = some d' := by
    intro p hp
    have hl' := lookup_of_mem n2 (c := p.1) (x := p.2) hp
    have hpc : p.1 ∈ C := by
      by_contra hn
      rw [n5 _ hn] at hl'
      simp at hl'
    rw [n4 _ hpc] at hl'
    rcases forall2_lookup (P := Extracts sem a) hk p.1 with ⟨e, _⟩ | ⟨x, y, e1, e2, d, d', e3, e4, _⟩
    · rw [e] at hl'; simp at hl'
    · rw [e1] at hl'
      obtain rfl := Option.some.inj hl'
      exact ⟨d, d', e3, e4⟩
  have hex : ∀ l : Streams V, (∀ p ∈ l, ∃ d d', p.2 = Cell.data d ∧ sem.extract a d = some d') →
      ∃ m', List.Forall₂ (fun p q : Ctx × Cell V => ∃ d d', p.2 = .data d ∧ sem.extract a d = some d' ∧ q = (p.1, .data d')) l m' := by
    intro l
    induction l with
    | nil => intro _; exact ⟨[], .nil⟩
    | cons p l ih =>
      intro hl
      obtain ⟨d, d', h1, h2⟩ := hl p (by simp)
      obtain ⟨m', hm'⟩ := ih fun q hq => hl q (by simp [hq])
      exact ⟨(p.1, .data d') :: m', .cons ⟨d, d', h1, h2, rfl⟩ hm'⟩
  obtain ⟨m', hm'⟩ := hex s' hsub
  have hk' : List.Forall₂ (fun p q : Ctx × Cell V => p.1 = q.1 ∧ Extracts sem a p.2 q.2) s' m' :=
    hm'.imp fun p q ⟨d, d', h1, h2, h3⟩ => by subst h3; exact ⟨rfl, d, d', h1, h2, rfl⟩
  refine ⟨_, loadAll_of s' m' reg' hm', ?_⟩
  have keys : ∀ {l k : Streams V},
      List.Forall₂ (fun p q : Ctx × Cell V => p.1 = q.1 ∧ Extracts sem a p.2 q.2) l k →
      k.map (·.1) = l.map (·.1) := by
    intro l k h
    induction h with
    | nil => rfl
    | cons h _ ih => rw [List.map_cons, List.map_cons, ih, h.1]
  have hlen : ∀ {l k : Streams V}, k.map (·.1) = l.map (·.1) → (k = [] ↔ l = []) := by
    intro l k h
    constructor
    · rintro rfl; simpa using h.symm
    · rintro rfl; simpa using h
  have hrm : Restricts C (some m) (some m') := by
    refine Or.inr ⟨m, m', rfl, rfl, by rw [keys hk]; exact n1, by rw [keys hk']; exact n2, ?_, ?_, ?_⟩
    · intro hne he
      exact n3 (fun h => hne ((hlen (keys hk)).2 h)) ((hlen (keys hk')).1 he)
    · intro c hc
      rcases forall2_lookup (P := Extracts sem a) hk c with ⟨e1, e2⟩ | ⟨x, y, e1, e2, d, d', e3, e4, e5⟩
      · rcases forall2_lookup (P := Extracts sem a) hk' c with ⟨f1, f2⟩ | ⟨x', y', f1, f2, _⟩
        · rw [e2, f2]
        · rw [n4 c hc, e1] at f1; simp at f1
      · rcases forall2_lookup (P := Extracts sem a) hk' c with ⟨f1, f2⟩ | ⟨x', y', f1, f2, d2, d2', f3, f4, f5⟩
        · rw [n4 c hc, e1] at f1; simp at f1
        · rw [n4 c hc, e1] at f1
          obtain rfl := Option.some.inj f1
          rw [e3] at f3
          obtain rfl := Cell.data.inj f3
          rw [e4] at f4
          obtain rfl := Option.some.inj f4
          rw [e2, f2, e5, f5]
    · intro c hc
      rcases forall2_lookup (P := Extracts sem a) hk' c with ⟨_, f2⟩ | ⟨x', y', f1, _⟩
      · exact f2
      · rw [n5 c hc] at f1; simp at f1
  intro r hr
  rw [foldl_store, foldl_store]
  by_cases hrt : r = t
  · subst hrt
    rw [if_pos rfl, if_pos rfl]
    by_cases hmn : m = []
    · have hm'n : m' = [] := by
        by_contra hne
        obtain ⟨p, hp⟩ := List.exists_mem_of_ne_nil _ hne
        obtain ⟨_, r2, _, r4, r5⟩ := hrm.getD
        simp only [Option.getD_some] at r2 r4 r5
        have hl' := lookup_of_mem r2 (c := p.1) (x := p.2) hp
        by_cases hpc : p.1 ∈ C
        · rw [r4 _ hpc, hmn] at hl'; simp at hl'
        · rw [r5 _ hpc] at hl'; simp at hl'
      rw [if_pos hmn, if_pos hm'n]; exact hr
    · have hm'n : m' ≠ [] := by
        have := hrm.getD.2.2.1
        simp only [Option.getD_some] at this
        exact this hmn
      rw [if_neg hmn, if_neg hm'n]
      exact hr.setBoth hrm
  · rw [if_neg hrt, if_neg hrt]; exact hr

/-- Instructions as the scheduler emits them: constants are stored, attributes are loaded, nodes are called. -/
def Instr.Scheduled : Instr → Prop
  | .store t _ => ∃ k, t = .const k
  | .load _ t _ => ∃ r a, t = .attr r a
  | .call _ _ _ _ t _ => ∃ id, t = .node id
  | .optimize .. => True
  | .ret _ => True
  | _ => False

theorem scheduleRef_scheduled (r : Ref) : ∀ i ∈ scheduleRef r, i.Scheduled := by
  induction r with
  | node id => simp [scheduleRef]
  | input x => simp [scheduleRef]
  | const k => simp [scheduleRef, Instr.Scheduled]
  | attr r a ih =>
    intro i hi
    simp only [scheduleRef, List.mem_append, List.mem_singleton] at hi
    rcases hi with hi | rfl
    · exact ih i hi
    · exact ⟨r, a, rfl⟩

theorem schedule_scheduled (g : Graph) (order : List ℕ) : ∀ i ∈ schedule g order, i.Scheduled := by
  intro i hi
  simp only [schedule, List.mem_append, List.mem_flatMap] at hi
  rcases hi with ⟨n, _, hi⟩ | hi
  · simp only [scheduleNode, List.mem_append, List.mem_flatMap, List.mem_singleton] at hi
    rcases hi with ((⟨r, _, hi⟩ | ⟨r, _, hi⟩) | hi) | rfl
    · exact scheduleRef_scheduled r i hi
    · exact scheduleRef_scheduled r i hi
    · split at hi
      · simp only [List.mem_singleton] at hi; subst hi; trivial
      · simp at hi
    · exact ⟨n.id, rfl⟩
  · split_ifs at hi with ho
    · simp at hi
    · simp only [List.mem_append, List.mem_flatMap, List.mem_singleton] at hi
      rcases hi with ⟨r, _, hi⟩ | rfl
      · exact scheduleRef_scheduled r i hi
      · trivial

/-- A constant's entry holds the constant's reference, never a dataset. -/
def ConstEntries (reg : Reg V) : Prop := ∀ k s, reg (.const k) = some s → s ≠ [] ∧ ∀ p ∈ s, p.2 = Cell.constObj

theorem exec_constEntries {sem : Sem V W} {i : Instr} (hi : i.Scheduled) {s s1 : St V W} (h : ConstEntries s.reg)
    (he : exec sem i s = .ok (s1, none)) : ConstEntries s1.reg := by
  cases i with
  | store t cs =>
    obtain ⟨k, rfl⟩ := hi
    simp only [exec, Except.ok.injEq, Prod.mk.injEq, and_true] at he
    subst he
    intro k' s' hs'
    simp only at hs'
    have hf : ∀ cs : List Ctx, cs.foldl (fun reg c => Reg.store reg (.const k) c Cell.constObj) s.reg =
        (cs.map fun c => (c, (Cell.constObj : Cell V))).foldl (fun reg q => reg.store (.const k) q.1 q.2) s.reg := by
      intro cs; rw [List.foldl_map]
    rw [hf, foldl_store] at hs'
    by_cases hk : Ref.const k' = .const k
    · rw [if_pos hk] at hs'
      by_cases hc : (cs.map fun c => (c, (Cell.constObj : Cell V))) = []
      · rw [if_pos hc] at hs'; exact h _ _ hs'
      · rw [if_neg hc] at hs'
        obtain rfl := Option.some.inj hs'
        refine ⟨setAll_ne_nil (Or.inl hc), ?_⟩
        rintro ⟨c, x⟩ hp
        rcases mem_setAll hp with hp | hp
        · obtain ⟨c', _, e⟩ := List.mem_map.1 hp
          simp only [Prod.mk.injEq] at e
          exact e.2.symm
        · cases hr : s.reg (.const k) with
          | none => rw [hr] at hp; simp at hp
          | some str => rw [hr] at hp; exact (h _ _ hr).2 _ hp
    · rw [if_neg hk] at hs'; exact h _ _ hs'
  | load src t a =>
    obtain ⟨r, a', rfl⟩ := hi
    simp only [exec] at he
    cases hs : s.reg src with
    | none => rw [hs] at he; simp at he
    | some str =>
      rw [hs] at he
      simp only at he
      cases hl : loadAll sem a (.attr r a') str s.reg with
      | error e => rw [hl] at he; simp at he
      | ok reg1 =>
        rw [hl] at he
        simp only [Except.ok.injEq, Prod.mk.injEq, and_true] at he
        subst he
        obtain ⟨m, _, rfl⟩ := loadAll_ok hl
        intro k s' hs'
        simp only at hs'
        rw [foldl_store, if_neg (by simp)] at hs'
        exact h _ _ hs'
  | call m im args kwargs t cs =>
    obtain ⟨id, rfl⟩ := hi
    simp only [exec] at he
    cases hc : callAll sem s m args kwargs cs with
    | error e => rw [hc] at he; simp at he
    | ok res =>
      rw [hc] at he
      simp only [Except.ok.injEq, Prod.mk.injEq, and_true] at he
      subst he
      intro k s' hs'
      simp only [Reg.storeAll, reduceCtorEq, if_false] at hs'
      exact h _ _ hs'
  | optimize m args kwargs d =>
    simp only [exec] at he
    split at he
    · simp at he
    · split at he
      · simp at he
      · simp only [Except.ok.injEq, Prod.mk.injEq, and_true] at he
        subst he
        exact h
  | ret outs =>
    simp only [exec] at he
    split at he <;> simp at he
  | delete ts => exact absurd hi id
  | moveModule dst m => exact absurd hi id
  | moveAct d r => exact absurd hi id

/-- Loading an attribute of a constant does not succeed. -/
theorem const_load_fails {sem : Sem V W} {k : ℕ} {t : Ref} {a : Attr} {s s1 : St V W} (h : ConstEntries s.reg) :
    exec sem (.load (.const k) t a) s ≠ .ok (s1, none) := by
  intro he
  simp only [exec] at he
  cases hs : s.reg (.const k) with
  | none => rw [hs] at he; simp at he
  | some str =>
    rw [hs] at he
    obtain ⟨h1, h2⟩ := h _ _ hs
    cases str with
    | nil => exact h1 rfl
    | cons p rest =>
      obtain ⟨c, x⟩ := p
      have : x = .constObj := h2 (c, x) (by simp)
      subst this
      simp [loadAll] at he

/-- A dropped instruction does not write what is not among its results. -/
theorem exec_dropped {sem : Sem V W} {i : Instr} (hi : i.Scheduled) (ho : i.isOptimize = false) {s s1 : St V W}
    (he : exec sem i s = .ok (s1, none)) : s1.w = s.w ∧ ∀ r, r ∉ i.produces → r.NotConst → s1.reg r = s.reg r := by
  cases i with
  | store t cs =>
    obtain ⟨k, rfl⟩ := hi
    simp only [exec, Except.ok.injEq, Prod.mk.injEq, and_true] at he
    subst he
    refine ⟨rfl, ?_⟩
    intro r _ hr
    exact (store_contexts cs s.reg (.const k) .constObj).1 r (hr k)
  | load src t a =>
    simp only [exec] at he
    cases hs : s.reg src with
    | none => rw [hs] at he; simp at he
    | some str =>
      rw [hs] at he
      simp only at he
      cases hl : loadAll sem a t str s.reg with
      | error e => rw [hl] at he; simp at he
      | ok reg1 =>
        rw [hl] at he
        simp only [Except.ok.injEq, Prod.mk.injEq, and_true] at he
        subst he
        obtain ⟨m, _, rfl⟩ := loadAll_ok hl
        refine ⟨rfl, ?_⟩
        intro r hr _
        simp only [Instr.produces, List.mem_singleton] at hr
        simp only
        rw [foldl_store, if_neg hr]
  | call m im args kwargs t cs =>
    simp only [exec] at he
    cases hc : callAll sem s m args kwargs cs with
    | error e => rw [hc] at he; simp at he
    | ok res =>
      rw [hc] at he
      simp only [Except.ok.injEq, Prod.mk.injEq, and_true] at he
      subst he
      refine ⟨rfl, ?_⟩
      intro r hr _
      simp only [Instr.produces, List.mem_singleton] at hr
      simp only [Reg.storeAll, if_neg hr]
  | optimize m args kwargs d => simp [Instr.isOptimize] at ho
  | ret outs =>
    simp only [exec] at he
    split at he <;> simp at he
  | delete ts => exact absurd hi id
  | moveModule dst m => exact absurd hi id
  | moveAct d r => exact absurd hi id

/-- A retained instruction does the same on the restricted entries. -/
theorem exec_retained {sem : Sem V W} {C : List Ctx} {i : Instr} (hi : i.Scheduled) (hc : ∀ c ∈ i.ctxs, c ∈ C) {s s1 s' : St V W}
    (hk : ConstEntries s.reg) (hw : s.w = s'.w) (hu : ∀ r ∈ i.uses, r.NotConst → Restricts C (s.reg r) (s'.reg r))
    (he : exec sem i s = .ok (s1, none)) (hst : i.produces ≠ [] ∨ i.isOptimize = true) :
    ∃ s1', exec sem i s' = .ok (s1', none) ∧ s1.w = s1'.w ∧
      ∀ r, r.NotConst → Restricts C (s.reg r) (s'.reg r) → Restricts C (s1.reg r) (s1'.reg r) := by
  cases i with
  | store t cs => simp [Instr.produces, Instr.isOptimize] at hst
  | load src t a =>
    have hsrc : src.NotConst := by
      rintro k rfl
      exact const_load_fails hk he
    simp only [exec] at he
    cases hs : s.reg src with
    | none => rw [hs] at he; simp at he
    | some str =>
      rw [hs] at he
      simp only at he
      cases hl : loadAll sem a t str s.reg with
      | error e => rw [hl] at he; simp at he
      | ok reg1 =>
        rw [hl] at he
        simp only [Except.ok.injEq, Prod.mk.injEq, and_true] at he
        subst he
        have hr := hu src (by simp [Instr.uses]) hsrc
        have hr' := hr
        rw [hs] at hr
        rcases hr with ⟨h1, _⟩ | ⟨x, str', h1, h2, h3⟩
        · simp at h1
        · obtain rfl := Option.some.inj h1
          rw [hs, h2] at hr'
          obtain ⟨reg1', h4, h5⟩ := load_restrict hr' (reg' := s'.reg) hl
          refine ⟨⟨s'.w, reg1'⟩, ?_, hw, fun r _ h => h5 r h⟩
          simp only [exec, h2, h4]
  | call m im args kwargs t cs =>
    simp only [exec] at he
    cases hcall : callAll sem s m args kwargs cs with
    | error e => rw [hcall] at he; simp at he
    | ok res =>
      rw [hcall] at he
      simp only [Except.ok.injEq, Prod.mk.injEq, and_true] at he
      subst he
      have hcall' := callAll_restrict sem m args kwargs cs hc hw hu
      refine ⟨⟨s'.w, s'.reg.storeAll t res⟩, ?_, hw, ?_⟩
      · simp only [exec, hcall', hcall]
      · intro r _ h
        simp only [Reg.storeAll]
        by_cases hrt : r = t
        · subst hrt
          rw [if_pos rfl, if_pos rfl]
          exact Restricts.setSame res (by rw [callAll_keys hcall]; exact hc) h
        · rw [if_neg hrt, if_neg hrt]; exact h
  | optimize m args kwargs d =>
    simp only [exec] at he
    have hg : d.contexts.mapM (fun c => gather sem s'.reg c args kwargs) = d.contexts.mapM fun c => gather sem s.reg c args kwargs :=
      mapM_congr_except _ fun c hcc => gather_restrict sem (hc c hcc) args kwargs hu
    cases hb : d.contexts.mapM fun c => gather sem s.reg c args kwargs with
    | error e => rw [hb] at he; simp at he
    | ok bs =>
      rw [hb] at he
      simp only at he
      cases ho : sem.optimize s.w d.fn m bs with
      | none => rw [ho] at he; simp at he
      | some w =>
        rw [ho] at he
        simp only [Except.ok.injEq, Prod.mk.injEq, and_true] at he
        subst he
        refine ⟨⟨w, s'.reg⟩, ?_, rfl, fun r _ h => h⟩
        simp only [exec, hg, hb, ← hw, ho]
  | ret outs => simp [Instr.produces, Instr.isOptimize] at hst
  | delete ts => exact absurd hi id
  | moveModule dst m => exact absurd hi id
  | moveAct d r => exact absurd hi id

theorem optStep_cases (i : Instr) (acc : List Instr × List Ref) :
    (optStep i acc = (i :: acc.1, i.uses ++ acc.2) ∧ (i.produces ≠ [] ∨ i.isOptimize = true)) ∨
    (optStep i acc = acc ∧ i.isOptimize = false ∧ ∀ r ∈ i.produces, r ∉ acc.2) := by
  unfold optStep
  by_cases h1 : i.isOptimize = true
  · rw [if_pos h1]; exact Or.inl ⟨rfl, Or.inr h1⟩
  · rw [if_neg h1]
    by_cases h2 : (i.produces.any fun r => acc.2.contains r) = true
    · rw [if_pos h2]
      refine Or.inl ⟨rfl, Or.inl ?_⟩
      rintro h
      rw [h] at h2
      simp at h2
    · rw [if_neg h2]
      refine Or.inr ⟨rfl, by simpa using h1, ?_⟩
      intro r hr hm
      apply h2
      rw [List.any_eq_true]
      exact ⟨r, hr, by simpa using hm⟩

/-- The pruned prefix simulates the full prefix. -/
theorem prefix_sim (sem : Sem V W) (C : List Ctx) (p : List Instr) (acc : List Instr × List Ref) (hp : ∀ i ∈ p, i.Scheduled) :
    ∃ p', (p.foldr optStep acc).1 = p' ++ acc.1 ∧ ∀ s s' s1 : St V W, (∀ i ∈ p', ∀ c ∈ i.ctxs, c ∈ C) → ConstEntries s.reg →
      s.w = s'.w → (∀ r ∈ (p.foldr optStep acc).2, r.NotConst → Restricts C (s.reg r) (s'.reg r)) → reaches sem p s = some s1 →
      ∃ s1', reaches sem p' s' = some s1' ∧ s1.w = s1'.w := by
  induction p with
  | nil => exact ⟨[], rfl, fun s s' s1 _ _ hw _ h => ⟨s', rfl, by simp only [reaches, Option.some.injEq] at h; rw [← h, hw]⟩⟩
  | cons i p ih =>
    obtain ⟨p', h1, h2⟩ := ih fun j hj => hp j (by simp [hj])
    have hi := hp i (by simp)
    rw [List.foldr_cons]
    rcases optStep_cases i (p.foldr optStep acc) with ⟨e, hst⟩ | ⟨e, hno, hpr⟩
    · rw [e]
      refine ⟨i :: p', by rw [h1, List.cons_append], ?_⟩
      intro s s' s1 hC hk hw hR hrun
      simp only [reaches] at hrun
      split at hrun
      · rename_i s2 he
        obtain ⟨s2', he', hw', hres⟩ := exec_retained hi (hC i (by simp)) hk hw
          (fun r hr => hR r (List.mem_append.2 (Or.inl hr))) he hst
        obtain ⟨s1', hr', hw''⟩ := h2 s2 s2' s1 (fun j hj => hC j (by simp [hj])) (exec_constEntries hi hk he) hw'
          (fun r hr hn => hres r hn (hR r (List.mem_append.2 (Or.inr hr)) hn)) hrun
        exact ⟨s1', by simp only [reaches, he', hr'], hw''⟩
      · simp at hrun
    · rw [e]
      refine ⟨p', h1, ?_⟩
      intro s s' s1 hC hk hw hR hrun
      simp only [reaches] at hrun
      split at hrun
      · rename_i s2 he
        obtain ⟨hw2, hreg⟩ := exec_dropped hi hno he
        exact h2 s2 s' s1 hC (exec_constEntries hi hk he) (by rw [hw2, hw])
          (fun r hr hn => by rw [hreg r (fun hm => hpr r hm hr) hn]; exact hR r hr hn) hrun
      · simp at hrun

theorem store_contexts_nodup (cs : List Ctx) (reg : Reg V) (r : Ref) (x : Cell V) (h : ∀ s, reg r = some s → (s.map (·.1)).Nodup) :
    ∀ s, (cs.foldl (fun reg c => reg.store r c x) reg) r = some s → (s.map (·.1)).Nodup := by
  induction cs generalizing reg with
  | nil => exact h
  | cons c cs ih =>
    rw [List.foldl_cons]
    apply ih
    intro s hs
    simp only [Reg.store, if_true, Option.some.injEq] at hs
    subst hs
    apply set_nodup
    cases hr : reg r with
    | none => simp
    | some s => exact h s hr

/-- The input registers of the two programs. -/
theorem prepare_restricts {names : List String} {args : List (RawInput V)} {kwargs : List (String × RawInput V)} {C C' : List Ctx}
    (hsub : ∀ c ∈ C', c ∈ C) (hne : C' ≠ []) {reg : Reg V} (h : prepareRegister names args kwargs C = .ok reg) :
    ConstEntries reg ∧ ∃ reg', prepareRegister names args kwargs C' = .ok reg' ∧ ∀ r, Restricts C' (reg r) (reg' r) := by
  unfold prepareRegister at h ⊢
  cases hb : bindInputs names args kwargs with
  | error e => rw [hb] at h; simp at h
  | ok b =>
    rw [hb] at h
    simp only [Except.ok.injEq] at h ⊢
    have hCne : C ≠ [] := by
      obtain ⟨c, hc⟩ := List.exists_mem_of_ne_nil _ hne
      exact List.ne_nil_of_mem (hsub c hc)
    have gen : ∀ (l : List (String × RawInput V)) (r0 r0' : Reg V), (∀ k, r0 (.const k) = none) → (∀ r, Restricts C' (r0 r) (r0' r)) →
        (∀ k, (l.foldl (fun reg p => C.foldl (fun reg c => reg.store (.input p.1) c (.data p.2.dataset)) reg) r0) (.const k) = none) ∧
        ∀ r, Restricts C' ((l.foldl (fun reg p => C.foldl (fun reg c => reg.store (.input p.1) c (.data p.2.dataset)) reg) r0) r)
          ((l.foldl (fun reg p => C'.foldl (fun reg c => reg.store (.input p.1) c (.data p.2.dataset)) reg) r0') r) := by
      intro l
      induction l with
      | nil => intro r0 r0' h1 h2; exact ⟨h1, h2⟩
      | cons p l ih =>
        intro r0 r0' h1 h2
        rw [List.foldl_cons, List.foldl_cons]
        obtain ⟨a1, _, a3⟩ := store_contexts C r0 (.input p.1) (.data p.2.dataset)
        obtain ⟨b1, _, b3⟩ := store_contexts C' r0' (.input p.1) (.data p.2.dataset)
        obtain ⟨s, hs, hl⟩ := a3 hCne
        obtain ⟨s', hs', hl'⟩ := b3 hne
        apply ih
        · intro k
          rw [a1 _ (by simp)]; exact h1 k
        · intro r
          by_cases hr : r = .input p.1
          · subst hr
            obtain ⟨g1, g2, g3, g4, g5⟩ := (h2 (.input p.1)).getD
            rw [hs, hs']
            refine Or.inr ⟨s, s', rfl, rfl, ?_, ?_, ?_, ?_, ?_⟩
            · apply store_contexts_nodup C r0 _ _ _ s hs
              intro t ht; rw [ht] at g1; exact g1
            · apply store_contexts_nodup C' r0' _ _ _ s' hs'
              intro t ht; rw [ht] at g2; exact g2
            · rintro _ rfl
              obtain ⟨c, hc⟩ := List.exists_mem_of_ne_nil _ hne
              have := hl' c
              rw [if_pos hc] at this
              simp at this
            · intro c hc
              rw [hl, hl', if_pos hc, if_pos (hsub c hc)]
            · intro c hc
              rw [hl', if_neg hc, g5 c hc]
          · rw [a1 _ hr, b1 _ hr]; exact h2 r
    obtain ⟨g1, g2⟩ := gen b (fun _ => none) (fun _ => none) (fun _ => rfl) (fun _ => Or.inl ⟨rfl, rfl⟩)
    rw [h] at g1 g2
    refine ⟨?_, _, rfl, g2⟩
    intro k s hs
    rw [g1 k] at hs
    simp at hs

theorem optStep_sub (is : List Instr) (acc : List Instr × List Ref) : ∀ i ∈ (is.foldr optStep acc).1, i ∈ is ∨ i ∈ acc.1 := by
  induction is with
  | nil => intro i hi; exact Or.inr hi
  | cons j is ih =>
    intro i hi
    rw [List.foldr_cons] at hi
    rcases optStep_cases j (is.foldr optStep acc) with ⟨e, _⟩ | ⟨e, _⟩
    · rw [e] at hi
      rcases List.mem_cons.1 hi with rfl | hi
      · simp
      · rcases ih i hi with h | h
        · simp [h]
        · exact Or.inr h
    · rw [e] at hi
      rcases ih i hi with h | h
      · simp [h]
      · exact Or.inr h

theorem hasOptimization_iff (is : List Instr) : is.any Instr.isOptimize = true ↔ HasOptimization is := by
  rw [List.any_eq_true]
  constructor
  · rintro ⟨i, hi, ho⟩
    cases i with
    | optimize m args kwargs d => exact ⟨m, args, kwargs, d, hi⟩
    | _ => simp [Instr.isOptimize] at ho
  · rintro ⟨m, args, kwargs, d, h⟩
    exact ⟨_, h, rfl⟩

theorem optimizationOnly_eq {is : List Instr} (h : HasOptimization is) : optimizationOnly is = (is.foldr optStep ([], [])).1 := by
  unfold optimizationOnly
  rw [if_pos ((hasOptimization_iff is).2 h)]

theorem run_of_reaches {sem : Sem V W} {p : List Instr} {s s' : St V W} (h : reaches sem p s = some s') : run sem p s = (s', .ok none) := by
  induction p generalizing s with
  | nil => simp only [reaches, Option.some.injEq] at h; rw [h]; rfl
  | cons i p ih =>
    simp only [reaches] at h
    split at h
    · rename_i s2 he
      simp only [run, he]
      exact ih h
    · simp at h

theorem lifeFrom_ctxs (keep : List Ref) (is : List Instr) (acc : List Ctx) (off : ℕ) :
    (lifeFrom keep off is).foldl (fun acc i => ctxUnion acc i.ctxs) acc = is.foldl (fun acc i => ctxUnion acc i.ctxs) acc := by
  induction is generalizing acc off with
  | nil => rfl
  | cons i is ih =>
    obtain ⟨d, hd, _⟩ := lifeFrom_cons keep off i is
    rw [hd, List.foldl_append, ih, List.foldl_cons, List.foldl_cons]
    congr 1
    split_ifs <;> simp [Instr.ctxs, ctxUnion]

theorem lifetime_contexts (is : List Instr) : programContexts (lifetimePass is) = programContexts is := by
  rw [lifetimePass_eq]
  exact lifeFrom_ctxs _ is [] 0

theorem runProgram_lifetime (sem : Sem V W) (names : List String) (is : List Instr) (w : W) (args : List (RawInput V))
    (kwargs : List (String × RawInput V)) :
    runProgram sem names (lifetimePass is) w args kwargs = runProgram sem names is w args kwargs := by
  unfold runProgram
  rw [lifetime_contexts]
  cases prepareRegister names args kwargs (programContexts is) with
  | error e => rfl
  | ok reg =>
    obtain ⟨h1, h2⟩ := lifetime_pass_same_result sem is ⟨w, reg⟩
    simp only [h1, h2]

/-! ### Properties -/

/-- **C22 (partial).** As far as the full program gets, so far gets the pruned one, with the same modules: after any part `p` of the
full program that completes there is a part `p'` of the pruned program that completes and leaves the modules in the same state. Missing:
the case that the pruned program has no contexts at all (see `no_contexts_fails`). -/
theorem optimization_only_follows_partial (sem : Sem V W) (g : Graph) (order : List ℕ) (w : W) (args : List (RawInput V))
    (kwargs : List (String × RawInput V)) (ho : HasOptimization (schedule g order))
    (hne : programContexts (optimizationOnly (schedule g order)) ≠ []) (reg : Reg V)
    (hreg : prepareRegister g.inputs args kwargs (programContexts (schedule g order)) = .ok reg) (p q : List Instr)
    (hpq : schedule g order = p ++ q) (s1 : St V W) (hp : reaches sem p ⟨w, reg⟩ = some s1) :
    ∃ p' q' reg' s1', optimizationOnly (schedule g order) = p' ++ q' ∧ (∀ i ∈ p', i ∈ p) ∧ (∀ i ∈ q', i ∈ q) ∧
      prepareRegister g.inputs args kwargs (programContexts (optimizationOnly (schedule g order))) = .ok reg' ∧
      reaches sem p' ⟨w, reg'⟩ = some s1' ∧ s1'.w = s1.w := by
  obtain ⟨hk, reg', hreg', hres⟩ := prepare_restricts (C' := programContexts (optimizationOnly (schedule g order))) (by
    intro c hc
    obtain ⟨i, hi, hci⟩ := mem_programContexts.1 hc
    rw [optimizationOnly_eq ho] at hi
    rcases optStep_sub _ _ i hi with h | h
    · exact mem_programContexts.2 ⟨i, h, hci⟩
    · simp at h) hne hreg
  obtain ⟨p', e, hsim⟩ := prefix_sim sem (programContexts (optimizationOnly (schedule g order))) p (q.foldr optStep ([], []))
    (fun i hi => schedule_scheduled g order i (by rw [hpq]; simp [hi]))
  have heq : optimizationOnly (schedule g order) = p' ++ (q.foldr optStep ([], [])).1 := by
    rw [optimizationOnly_eq ho, hpq, List.foldr_append, e]
  obtain ⟨s1', h1, h2⟩ := hsim ⟨w, reg⟩ ⟨w, reg'⟩ s1 (by
    intro i hi c hc
    exact mem_programContexts.2 ⟨i, by rw [heq]; simp [hi], hc⟩) hk rfl (fun r _ _ => hres r) hp
  refine ⟨p', _, reg', s1', heq, ?_, ?_, hreg', h1, h2.symm⟩
  · -- `p'` consists of instructions of `p`
    have gen : ∀ (p p' : List Instr) (acc : List Instr × List Ref), (p.foldr optStep acc).1 = p' ++ acc.1 → ∀ i ∈ p', i ∈ p := by
      intro p
      induction p with
      | nil =>
        intro p' acc h i hi
        have := congrArg List.length h
        simp only [List.foldr_nil, List.length_append] at this
        have : p' = [] := List.length_eq_zero_iff.1 (by omega)
        subst this
        simp at hi
      | cons j p ih =>
        intro p' acc h i hi
        rw [List.foldr_cons] at h
        rcases optStep_cases j (p.foldr optStep acc) with ⟨e, _⟩ | ⟨e, _⟩
        · rw [e] at h
          simp only at h
          cases p' with
          | nil => simp at hi
          | cons k p' =>
            rw [List.cons_append, List.cons.injEq] at h
            rcases List.mem_cons.1 hi with rfl | hi
            · rw [← h.1]; simp
            · exact List.mem_cons_of_mem _ (ih p' acc h.2 i hi)
        · rw [e] at h
          exact List.mem_cons_of_mem _ (ih p' acc h i hi)
    exact gen p p' _ e
  · intro i hi
    rcases optStep_sub _ _ i hi with h | h
    · exact h
    · simp at h

/-- **C22 (partial).** If the full program runs through, the program that `layerwise_optimize` runs instead runs through as well,
returns nothing, and leaves the modules in the same state, whatever the modules and delegates compute. Missing: as above. -/
theorem optimization_only_same_modules_partial (sem : Sem V W) (g : Graph) (order : List ℕ) (w w' : W) (args : List (RawInput V))
    (kwargs : List (String × RawInput V)) (ho : HasOptimization (schedule g order))
    (hne : programContexts (optimizationOnly (schedule g order)) ≠ []) (out : Option (Out V))
    (h : runGraph sem g order w args kwargs = (w', .ok out)) :
    runOptimizations sem g order w args kwargs = (w', .ok none) := by
  unfold runOptimizations
  rw [runProgram_lifetime]
  unfold runGraph at h
  simp only at h
  cases hreg : prepareRegister g.inputs args kwargs (programContexts (schedule g order)) with
  | error e => rw [hreg] at h; simp at h
  | ok reg =>
    rw [hreg] at h
    simp only [Prod.mk.injEq] at h
    obtain ⟨hw, hrun⟩ := h
    -- split off the return instruction
    obtain ⟨p, q, hpq, hnr, hq⟩ : ∃ p q, schedule g order = p ++ q ∧ (∀ outs, Instr.ret outs ∉ p) ∧ (q = [] ∨ ∃ outs, q = [.ret outs]) := by
      unfold schedule
      simp only
      by_cases hout : g.outputs.isEmpty = true
      · rw [if_pos hout, List.append_nil]
        refine ⟨_, [], (List.append_nil _).symm, ?_, Or.inl rfl⟩
        intro outs hm
        obtain ⟨n, _, hm⟩ := List.mem_flatMap.1 hm
        exact scheduleNode_noret _ n outs hm
      · rw [if_neg hout, ← List.append_assoc]
        refine ⟨_, _, rfl, ?_, Or.inr ⟨_, rfl⟩⟩
        intro outs hm
        rcases List.mem_append.1 hm with hm | hm
        · obtain ⟨n, _, hm⟩ := List.mem_flatMap.1 hm
          exact scheduleNode_noret _ n outs hm
        · obtain ⟨r, _, hm⟩ := List.mem_flatMap.1 hm
          exact scheduleRef_noret r outs hm
    obtain ⟨s1, h1, h2⟩ := reaches_of_run (sem := sem) (p := p) (q := q) hnr (s := ⟨w, reg⟩)
      (s' := (run sem (schedule g order) ⟨w, reg⟩).1) (o := out) (by rw [← hpq, ← hrun])
    obtain ⟨p', q', reg', s1', e1, e2, e3, e4, e5, e6⟩ :=
      optimization_only_follows_partial sem g order w args kwargs ho hne reg hreg p q hpq s1 h1
    have hw1 : s1.w = w' := by
      rcases hq with rfl | ⟨outs, rfl⟩
      · simp only [run, Prod.mk.injEq] at h2
        rw [h2.1, hw]
      · simp only [run, exec] at h2
        cases hro : returnOutputs s1.reg outs with
        | error e => rw [hro] at h2; simp at h2
        | ok o =>
          rw [hro] at h2
          simp only [Prod.mk.injEq] at h2
          rw [h2.1, hw]
    have hq' : q' = [] := by
      rcases hq with rfl | ⟨outs, rfl⟩
      · exact List.eq_nil_iff_forall_not_mem.2 fun i hi => by simpa using e3 i hi
      · rw [List.eq_nil_iff_forall_not_mem]
        intro i hi
        have := e3 i hi
        simp only [List.mem_singleton] at this
        subst this
        have hm : Instr.ret outs ∈ optimizationOnly (schedule g order) := by rw [e1]; simp [hi]
        rw [optimizationOnly_eq ho] at hm
        -- the pass retains no return instruction
        have gen : ∀ is : List Instr, Instr.ret outs ∉ (is.foldr optStep ([], [])).1 := by
          intro is
          induction is with
          | nil => simp
          | cons j is ih =>
            rw [List.foldr_cons]
            rcases optStep_cases j (is.foldr optStep ([], [])) with ⟨e, hst⟩ | ⟨e, _⟩
            · rw [e]
              intro hc
              rcases List.mem_cons.1 hc with rfl | hc
              · simp [Instr.produces, Instr.isOptimize] at hst
              · exact ih hc
            · rw [e]; exact ih
        exact gen _ hm
    unfold runProgram
    rw [e4, e1, hq', List.append_nil]
    simp only [run_of_reaches e5, e6, hw1]

/-- **C22 (partial).** The delegates are called in the same order, each with the same module and the same activations. Missing: as
above. -/
theorem optimization_only_same_calls_partial (sem : Sem V W) (g : Graph) (order : List ℕ) (w w' : W) (log : List (Optimization V))
    (args : List (RawInput V)) (kwargs : List (String × RawInput V)) (ho : HasOptimization (schedule g order))
    (hne : programContexts (optimizationOnly (schedule g order)) ≠ []) (out : Option (Out V))
    (h : runGraph (recorded sem) g order (w, []) args kwargs = ((w', log), .ok out)) :
    runOptimizations (recorded sem) g order (w, []) args kwargs = ((w', log), .ok none) :=
  optimization_only_same_modules_partial (recorded sem) g order (w, []) (w', log) args kwargs ho hne out h

/-- **C22.** Only what some delegate needs is kept: besides the optimizations, an instruction is retained only if it produces a value
that a later retained instruction uses; in particular nothing is returned. -/
theorem optimization_only_minimal (is p q : List Instr) (i : Instr) (ho : HasOptimization is) (h : optimizationOnly is = p ++ i :: q) :
    (∃ m args kwargs d, i = .optimize m args kwargs d) ∨ ∃ r ∈ i.produces, ∃ j ∈ q, r ∈ j.uses := by
  rw [optimizationOnly_eq ho] at h
  clear ho
  -- the required values are the values used by the retained instructions
  have hreq : ∀ is : List Instr, ∀ r ∈ (is.foldr optStep ([], [])).2, ∃ j ∈ (is.foldr optStep ([], [])).1, r ∈ j.uses := by
    intro is
    induction is with
    | nil => simp
    | cons j is ih =>
      rw [List.foldr_cons]
      rcases optStep_cases j (is.foldr optStep ([], [])) with ⟨e, _⟩ | ⟨e, _⟩
      · rw [e]
        intro r hr
        rcases List.mem_append.1 hr with hr | hr
        · exact ⟨j, by simp, hr⟩
        · obtain ⟨k, hk, hr⟩ := ih r hr
          exact ⟨k, by simp [hk], hr⟩
      · rw [e]; exact ih
  induction is generalizing p with
  | nil => simp at h
  | cons j is ih =>
    rw [List.foldr_cons] at h
    generalize hacc : is.foldr optStep ([], []) = acc at h ih
    unfold optStep at h
    by_cases h1 : j.isOptimize = true
    · rw [if_pos h1] at h
      cases p with
      | nil =>
        simp only [List.nil_append, List.cons.injEq] at h
        obtain ⟨rfl, _⟩ := h
        left
        cases j with
        | optimize m args kwargs d => exact ⟨m, args, kwargs, d, rfl⟩
        | _ => simp [Instr.isOptimize] at h1
      | cons k p =>
        simp only [List.cons_append, List.cons.injEq] at h
        exact ih p h.2
    · rw [if_neg h1] at h
      by_cases h2 : (j.produces.any fun r => acc.2.contains r) = true
      · rw [if_pos h2] at h
        cases p with
        | nil =>
          simp only [List.nil_append, List.cons.injEq] at h
          obtain ⟨rfl, rfl⟩ := h
          right
          obtain ⟨r, hr, hc⟩ := List.any_eq_true.1 h2
          have := hreq is r (by rw [hacc]; simpa using hc)
          rw [hacc] at this
          exact ⟨r, hr, this⟩
        | cons k p =>
          simp only [List.cons_append, List.cons.injEq] at h
          exact ih p h.2
      · rw [if_neg h2] at h
        exact ih p h

/-- **C22.** Without optimizations the program is left alone. -/
theorem optimization_only_unchanged (is : List Instr) (h : ¬ HasOptimization is) : optimizationOnly is = is := by
  unfold optimizationOnly
  rw [if_neg]
  intro hc
  exact h ((hasOptimization_iff is).1 hc)

/-! ### Concrete cases -/

/-- In the graph with a delegate, only node 0 and the delegate are kept. -/
example : optimizationOnly (schedule delegated [0, 1, 2]) =
    [.call 1 true [.input "x"] [] (.node 0) [0, 4], .optimize 2 [.node 0, .input "y"] [] ⟨3, [4, 0]⟩] := by decide

/-- The hypotheses hold for it. -/
example : HasOptimization (schedule delegated [0, 1, 2]) ∧ programContexts (optimizationOnly (schedule delegated [0, 1, 2])) ≠ [] ∧
    runGraph toySem delegated [0, 1, 2] 7 [.batches [[1], [2]]] [("y", .single [100])] =
      (473, .ok (some [(0, [[[100, 5], [8]], [[100, 5], [9]]])])) ∧
    runOptimizations toySem delegated [0, 1, 2] 7 [.batches [[1], [2]]] [("y", .single [100])] = (473, .ok none) :=
  ⟨(hasOptimization_iff _).1 (by decide), by decide, by decide, by decide⟩

/-- **C22, deviation.** A delegate that asks for activations in no context, for a module whose argument is an attribute of an
input: the full program runs through, but the pruned program has no contexts, so the input is not stored at all and the run ends
in a `KeyError`. -/
theorem no_contexts_fails :
    ∃ g : Graph, g.UniqueIds ∧ topologicalSort g = .ok [0] ∧ HasOptimization (schedule g [0]) ∧
      (∃ w' out, runGraph toySem g [0] 7 [.single [1, 2]] [] = (w', .ok (some out))) ∧
      (runOptimizations toySem g [0] 7 [.single [1, 2]] []).2 = .error .keyError :=
  ⟨{ nodes := [
      { id := 0, name := "a", target := 1, isModule := true, args := [.attr (.input "x") (.idx 1)], kwargs := [], delegate := some ⟨3, []⟩ }]
     inputs := ["x"]
     outputs := [.node 0] }, by decide, by decide, (hasOptimization_iff _).1 (by decide), ⟨73, [(0, [[[75]]])], by decide⟩, by decide⟩

end FF.Orch
