import Verif.Orch.ExecProps

/-! # When a scheduled graph runs to completion (C20) -/

namespace FF.Orch

variable {V W : Type}

/-! ### Specification -/

/-- Well-formed graphs: distinct node ids and input names; arguments refer to declared inputs, constants (without attribute access) or
nodes; outputs are computed by leaf nodes; every leaf is needed for something. -/
structure WellFormed (g : Graph) : Prop where
  ids : g.UniqueIds
  names : g.inputs.Nodup
  inputs : ∀ n ∈ g.leaves, ∀ r ∈ n.allArgs, ∀ x, r.unwrap = .input x → x ∈ g.inputs
  consts : ∀ n ∈ g.leaves, ∀ r ∈ n.allArgs, ∀ k, r.unwrap = .const k → r = .const k
  outputs : ∀ r ∈ g.outputs, ∃ n ∈ g.leafIds, r.unwrap = .node n
  live : ∀ n ∈ g.leafIds, ∃ c, Needed g c n

/-- `r'` is `r` or one of the references it takes an attribute of. -/
inductive Ref.Sub : Ref → Ref → Prop
  | refl {r : Ref} : Ref.Sub r r
  | step {r r' : Ref} {a : Attr} : Ref.Sub r' r → Ref.Sub r' (.attr r a)

/-- The contexts in which the program runs anything. -/
def Active (g : Graph) (c : Ctx) : Prop :=
  (∃ n ∈ g.leafIds, Needed g c n) ∨ (∃ n ∈ g.leaves, ∃ d, n.delegate = some d ∧ n.isModule = true ∧ c ∈ d.contexts) ∨
  (c = 0 ∧ ∃ n ∈ g.leaves, ∃ r ∈ n.allArgs, ∃ k, r.unwrap = .const k)

/-- The base of `r` is computed in context `c`. -/
def BaseIn (g : Graph) (c : Ctx) (r : Ref) : Prop :=
  (∃ n, r.unwrap = .node n ∧ Needed g c n) ∨ ∃ x, r.unwrap = .input x ∧ Active g c

/-- The denotation is defined: every node has a value in every context in which it is needed, and every attribute access the program
performs succeeds. -/
structure Defined (sem : Sem V W) (g : Graph) (inp : String → List V) (wAt : ℕ → W) : Prop where
  nodes : ∀ c, ∀ n ∈ g.leafIds, Needed g c n → ∃ d, Den sem g inp wAt c (.node n) d
  args : ∀ n ∈ g.leaves, ∀ r ∈ n.allArgs, ∀ r', Ref.Sub r' r → ∀ c, BaseIn g c r' → ∃ d, Den sem g inp wAt c r' d
  outputs : ∀ r ∈ g.outputs, ∀ r', Ref.Sub r' r → ∀ c, BaseIn g c r' → ∃ d, Den sem g inp wAt c r' d

/-! ### Denotations are unique -/

theorem callRel_unique {sem : Sem V W} {w : W} {c : Ctx} {t nargs : ℕ} {keys : List String} {ads : List (List V)} {o1 o2 : List V}
    (h1 : CallRel sem w c t nargs keys ads o1) (h2 : CallRel sem w c t nargs keys ads o2) : o1 = o2 := by
  rcases h1 with ⟨ha, v, hv, rfl⟩ | ⟨al, N, rows, hal, htr, hlen, hcall⟩
  · rcases h2 with ⟨_, v', hv', rfl⟩ | ⟨al, N, rows, hal, _⟩
    · rw [hv] at hv'; rw [Option.some.inj hv']
    · obtain ⟨d, hd, _⟩ := hal.2.1; rw [ha] at hd; simp at hd
  · rcases h2 with ⟨ha, _⟩ | ⟨al', N', rows', hal', htr', hlen', hcall'⟩
    · obtain ⟨d, hd, _⟩ := hal.2.1; rw [ha] at hd; simp at hd
    · obtain ⟨_, rfl⟩ := aligned_unique hal hal'
      obtain rfl := transposed_unique (aligned_ne hal) htr htr'
      apply List.ext_getElem (by rw [hlen, hlen'])
      intro j h1 h2
      have hj : j < rows.length := by rw [← hlen]; exact h1
      have e1 := hcall j _ _ (List.getElem?_eq_getElem hj) (List.getElem?_eq_getElem h1)
      have e2 := hcall' j _ _ (List.getElem?_eq_getElem hj) (List.getElem?_eq_getElem h2)
      rw [e1] at e2
      exact Option.some.inj e2

theorem bundleRel_unique {nargs : ℕ} {keys : List String} {ads : List (List V)} {b1 b2 : Bundle V} (h1 : BundleRel nargs keys ads b1)
    (h2 : BundleRel nargs keys ads b2) : b1 = b2 := by
  rcases h1 with ⟨ha, rfl⟩ | ⟨al, N, hal, rfl⟩
  · rcases h2 with ⟨_, rfl⟩ | ⟨al, N, hal, _⟩
    · rfl
    · obtain ⟨d, hd, _⟩ := hal.2.1; rw [ha] at hd; simp at hd
  · rcases h2 with ⟨ha, _⟩ | ⟨al', N', hal', rfl⟩
    · obtain ⟨d, hd, _⟩ := hal.2.1; rw [ha] at hd; simp at hd
    · obtain ⟨_, rfl⟩ := aligned_unique hal hal'; rfl

/-- **C20.** A reference has at most one value: evaluation order and scheduling cannot matter. -/
theorem denotation_unique {sem : Sem V W} {g : Graph} {inp : String → List V} {wAt : ℕ → W} {c : Ctx} {r : Ref} {d d' : List V}
    (h : Den sem g inp wAt c r d) (h' : Den sem g inp wAt c r d') : d = d' := by
  induction h generalizing d' with
  | input _ => cases h'; rfl
  | const => cases h'; rfl
  | attr _ hx ih =>
    cases h' with
    | attr h1 hx' =>
      rw [← extract_iff] at hx hx'
      rw [ih h1, hx'] at hx; exact (Option.some.inj hx).symm
  | @node id n ads out hf hlen _ hc ih =>
    cases h' with
    | @node _ n' ads' _ hf' hlen' hargs' hc' =>
      rw [hf] at hf'
      obtain rfl := Option.some.inj hf'
      have : ads = ads' := by
        apply List.ext_getElem (by rw [hlen, hlen'])
        intro i h1 h2
        have hi : i < n.allArgs.length := by rw [← hlen]; exact h1
        exact ih i _ _ (List.getElem?_eq_getElem hi) (List.getElem?_eq_getElem h1)
          (hargs' i _ _ (List.getElem?_eq_getElem hi) (List.getElem?_eq_getElem h2))
      subst this
      exact callRel_unique hc hc'

theorem dens_unique {sem : Sem V W} {g : Graph} {inp : String → List V} {wAt : ℕ → W} {c : Ctx} {rs : List Ref} {ds ds' : List (List V)}
    (h : List.Forall₂ (Den sem g inp wAt c) rs ds) (h' : List.Forall₂ (Den sem g inp wAt c) rs ds') : ds = ds' := by
  induction h generalizing ds' with
  | nil => cases h'; rfl
  | cons h1 _ ih =>
    cases h' with
    | cons h2 h3 => rw [denotation_unique h1 h2, ih h3]

/-! ### Progress -/

theorem run_single {sem : Sem V W} {i : Instr} {s : St V W} {e : EErr} (h : exec sem i s = .error e) : run sem [i] s = (s, .error e) := by
  simp only [run, h]

theorem run_append_error {sem : Sem V W} {p q : List Instr} {s s' : St V W} {e : EErr} (h : run sem p s = (s', .error e)) :
    run sem (p ++ q) s = (s', .error e) := by
  induction p generalizing s with
  | nil => simp [run] at h
  | cons i p ih =>
    simp only [List.cons_append, run] at h ⊢
    cases he : exec sem i s with
    | error e' => rw [he] at h; exact h
    | ok r =>
      obtain ⟨s1, o⟩ := r
      rw [he] at h
      cases o with
      | none => exact ih h
      | some o => simp at h

theorem run_append_reaches {sem : Sem V W} {p q : List Instr} {s s1 : St V W} (h : reaches sem p s = some s1) :
    run sem (p ++ q) s = run sem q s1 := by
  induction p generalizing s with
  | nil => simp only [reaches, Option.some.injEq] at h; rw [h]; rfl
  | cons i p ih =>
    simp only [List.cons_append, run, reaches] at h ⊢
    cases he : exec sem i s with
    | error e' => rw [he] at h; simp at h
    | ok r =>
      obtain ⟨s2, o⟩ := r
      rw [he] at h
      cases o with
      | none => exact ih h
      | some o => simp at h

/-- Ways a run can fail without a bookkeeping error. -/
def Benign (e : EErr) : Prop := e = .valueError ∨ e = .userError ∨ e = .lookupError

section
variable {sem : Sem V W} {g : Graph} {inp : String → List V} {wAt : ℕ → W} {ctxs : ℕ → List Ctx} {PC : List Ctx} {P : List ℕ}

/-- A reference that can be loaded: its base is available in some context, or it is a plain constant. -/
def Loadable (g : Graph) (ctxs : ℕ → List Ctx) (PC : List Ctx) (P : List ℕ) (r : Ref) : Prop :=
  (∃ c, Avail g ctxs PC P c r) ∨ ∃ k, r = .const k

theorem loadable_attr {r : Ref} {a : Attr} (h : Loadable g ctxs PC P (.attr r a)) : ∃ c, Avail g ctxs PC P c r := by
  rcases h with ⟨c, h⟩ | ⟨k, h⟩
  · exact ⟨c, avail_attr.1 h⟩
  · simp at h

theorem avail_not_const {c : Ctx} {r : Ref} (h : Avail g ctxs PC P c r) (k : ℕ) : r ≠ .const k := by
  rintro rfl; exact h

theorem scheduleRef_progress (r : Ref) {s : St V W} (h : RInv (Den sem g inp wAt) g ctxs PC P s.reg) (hl : Loadable g ctxs PC P r) :
    (∃ s', reaches sem (scheduleRef r) s = some s') ∨
    ∃ s', run sem (scheduleRef r) s = (s', .error .lookupError) ∧ ∃ r' a c d, Ref.Sub (.attr r' a) r ∧ Avail g ctxs PC P c r' ∧
      Den sem g inp wAt c r' d ∧ sem.extract a d = none := by
  induction r with
  | node id => exact Or.inl ⟨s, rfl⟩
  | input x => exact Or.inl ⟨s, rfl⟩
  | const k => exact Or.inl ⟨_, reaches_single.2 rfl⟩
  | attr r a ih =>
    obtain ⟨c, hc⟩ := loadable_attr hl
    simp only [scheduleRef]
    rcases ih (Or.inl ⟨c, hc⟩) with ⟨s1, h1⟩ | ⟨s1, h1, r', a', c', d, h2, h3⟩
    · obtain ⟨hw, hinv, hgrow, hready⟩ := scheduleRef_inv r h h1
      obtain ⟨str, h2, _⟩ := hready c hc
      have hdata : ∀ c x, (c, x) ∈ str → ∃ d, x = .data d ∧ Den sem g inp wAt c r d ∧ Avail g ctxs PC P c r := by
        intro c' x hx
        rcases hinv.sound r str c' x h2 hx with ⟨k, hk, _⟩ | h3
        · exact absurd hk (avail_not_const hc k)
        · exact h3
      cases hla : loadAll sem a (.attr r a) str s1.reg with
      | ok reg' =>
        left
        refine ⟨⟨s1.w, reg'⟩, ?_⟩
        rw [reaches_append, h1]
        show reaches sem [_] s1 = _
        rw [reaches_single]
        simp only [exec, h2, hla]
      | error e =>
        right
        have he : exec sem (.load r (.attr r a) a) s1 = .error e := by simp only [exec, h2, hla]
        have hwit : e = .lookupError ∧ ∃ c d, (c, .data d) ∈ str ∧ sem.extract a d = none := by
          have gen : ∀ (str' : Streams V) (reg : Reg V), (∀ p ∈ str', p ∈ str) → loadAll sem a (.attr r a) str' reg = .error e →
              e = .lookupError ∧ ∃ c d, (c, .data d) ∈ str ∧ sem.extract a d = none := by
            intro str'
            induction str' with
            | nil => intro reg _ hx; simp [loadAll] at hx
            | cons p rest ih =>
              intro reg hsub hx
              obtain ⟨c', x⟩ := p
              obtain ⟨d, rfl, _⟩ := hdata c' x (hsub _ (by simp))
              simp only [loadAll] at hx
              cases hex : sem.extract a d with
              | none =>
                rw [hex] at hx
                exact ⟨(Except.error.inj hx).symm, c', d, hsub _ (by simp), hex⟩
              | some d' =>
                rw [hex] at hx
                exact ih _ (fun q hq => hsub q (by simp [hq])) hx
          exact gen str s1.reg (fun p hp => hp) hla
        obtain ⟨rfl, c', d, hd1, hd2⟩ := hwit
        obtain ⟨d', hd', hden, hav⟩ := hdata c' _ hd1
        obtain rfl := Cell.data.inj hd'
        exact ⟨s1, by rw [run_append_reaches h1, run_single he], r, a, c', d, .refl, hav, hden, hd2⟩
    · right
      exact ⟨s1, run_append_error h1, r', a', c', d, .step h2, h3⟩

theorem scheduleRefs_progress (rs : List Ref) {s : St V W} (h : RInv (Den sem g inp wAt) g ctxs PC P s.reg)
    (hl : ∀ r ∈ rs, Loadable g ctxs PC P r) :
    (∃ s', reaches sem (rs.flatMap scheduleRef) s = some s') ∨
    ∃ s', run sem (rs.flatMap scheduleRef) s = (s', .error .lookupError) ∧ ∃ r ∈ rs, ∃ r' a c d, Ref.Sub (.attr r' a) r ∧
      Avail g ctxs PC P c r' ∧ Den sem g inp wAt c r' d ∧ sem.extract a d = none := by
  induction rs generalizing s with
  | nil => exact Or.inl ⟨s, rfl⟩
  | cons r rs ih =>
    rw [List.flatMap_cons]
    rcases scheduleRef_progress r h (hl r (by simp)) with ⟨s1, h1⟩ | ⟨s1, h1, h2⟩
    · obtain ⟨_, hinv, _, _⟩ := scheduleRef_inv r h h1
      rcases ih hinv (fun r' hr' => hl r' (by simp [hr'])) with ⟨s2, h2⟩ | ⟨s2, h2, r', hr', h3⟩
      · left; exact ⟨s2, by rw [reaches_append, h1]; exact h2⟩
      · right; exact ⟨s2, by rw [run_append_reaches h1]; exact h2, r', by simp [hr'], h3⟩
    · right; exact ⟨s1, run_append_error h1, r, by simp, h2⟩

/-- An argument that is available in context `c`, or a plain constant, can be read. -/
theorem getDataset_ready {reg : Reg V} (h : RInv (Den sem g inp wAt) g ctxs PC P reg) {c : Ctx} {r : Ref}
    (hr : Ready g ctxs PC P reg r) (ha : Avail g ctxs PC P c r ∨ ∃ k, r = .const k) : ∃ d, getDataset sem reg c r = .ok d := by
  rcases ha with ha | ⟨k, rfl⟩
  · obtain ⟨str, h1, h2⟩ := hr c ha
    obtain ⟨⟨c', x⟩, hx, rfl⟩ := List.mem_map.1 h2
    rcases h.sound r str c' x h1 hx with ⟨k, hk, _⟩ | ⟨d, rfl, _, _⟩
    · exact absurd hk (avail_not_const ha k)
    · have hload : reg.load r c' = .ok (.data d) := by
        unfold Reg.load; rw [h1]; simp only; rw [lookup_of_mem (h.keys r str h1) hx]
      refine ⟨d, ?_⟩
      cases r with
      | const k => exact absurd rfl (avail_not_const ha k)
      | node id => simp only [getDataset, hload]
      | input x => simp only [getDataset, hload]
      | attr r a => simp only [getDataset, hload]
  · exact ⟨_, rfl⟩

theorem datasets_ready {reg : Reg V} (h : RInv (Den sem g inp wAt) g ctxs PC P reg) {c : Ctx} (rs : List Ref)
    (hr : ∀ r ∈ rs, Ready g ctxs PC P reg r) (ha : ∀ r ∈ rs, Avail g ctxs PC P c r ∨ ∃ k, r = .const k) :
    ∃ ads, List.Forall₂ (fun r d => getDataset sem reg c r = .ok d) rs ads := by
  induction rs with
  | nil => exact ⟨[], .nil⟩
  | cons r rs ih =>
    obtain ⟨ads, h1⟩ := ih (fun r' hr' => hr r' (by simp [hr'])) (fun r' hr' => ha r' (by simp [hr']))
    obtain ⟨d, h2⟩ := getDataset_ready h (hr r (by simp)) (ha r (by simp))
    exact ⟨d :: ads, .cons h2 h1⟩

theorem gather_error {reg : Reg V} {c : Ctx} {args : List Ref} {kwargs : List (String × Ref)} {e : EErr} {ads : List (List V)}
    (hads : List.Forall₂ (fun r d => getDataset sem reg c r = .ok d) (args ++ kwargs.map (·.2)) ads)
    (h : gather sem reg c args kwargs = .error e) : e = .valueError := by
  unfold gather at h
  simp only [bind, Except.bind] at h
  obtain ⟨a, k, rfl, hf1, hf2⟩ := forall2_append.1 hads
  rw [(mapM_ok_iff _ _ _).2 hf1] at h
  simp only at h
  rw [(mapM_ok_iff _ _ _).2 hf2] at h
  simp only at h
  cases hb : broadcast (a ++ k) with
  | ok al => rw [hb] at h; simp at h
  | error e' =>
    rw [hb] at h
    rw [← Except.error.inj h]
    exact ((broadcast_error_iff _ _).1 hb).1

theorem callTarget_error {w : W} {c : Ctx} {m : ℕ} {a : List V} {k : List (String × V)} {e : EErr} (h : callTarget sem w c m a k = .error e) :
    e = .userError := by
  unfold callTarget at h
  split at h
  · simp at h
  · exact (Except.error.inj h).symm

theorem row_error {b : Bundle V} {i : ℕ} {e : EErr} (h : b.row i = .error e) : e = .lookupError := by
  unfold Bundle.row at h
  simp only [bind, Except.bind] at h
  split at h
  · next e' h1 =>
    obtain ⟨x, _, hx⟩ := mapM_error _ _ _ h1
    unfold batchAt at hx
    split at hx
    · simp at hx
    · rw [← Except.error.inj h]; exact (Except.error.inj hx).symm
  · split at h
    · next e' h1 =>
      obtain ⟨x, _, hx⟩ := mapM_error _ _ _ h1
      unfold kwBatchAt at hx
      split at hx
      · simp at hx
      · rw [← Except.error.inj h]; exact (Except.error.inj hx).symm
    · simp at h

theorem callOne_error {s : St V W} {m : ℕ} {c : Ctx} {args : List Ref} {kwargs : List (String × Ref)} {e : EErr} {ads : List (List V)}
    (hads : List.Forall₂ (fun r d => getDataset sem s.reg c r = .ok d) (args ++ kwargs.map (·.2)) ads)
    (h : callOne sem s m args kwargs c = .error e) :
    Benign e ∧ ¬ ∃ out, CallRel sem s.w c m args.length (kwargs.map (·.1)) ads out := by
  constructor
  · unfold callOne at h
    simp only [bind, Except.bind] at h
    split at h
    · next e' h1 =>
      rw [← Except.error.inj h]
      exact Or.inl (gather_error hads h1)
    · split_ifs at h
      · split at h
        · next e' h1 => rw [← Except.error.inj h]; exact Or.inr (Or.inl (callTarget_error h1))
        · simp at h
      · obtain ⟨i, _, hi⟩ := mapM_error _ _ _ h
        unfold callBatch at hi
        split at hi
        · next e' h1 => rw [← Except.error.inj hi]; exact Or.inr (Or.inr (row_error h1))
        · exact Or.inr (Or.inl (callTarget_error hi))
  · rintro ⟨out, hout⟩
    rw [(callOne_ok_iff _ _ _ _ _ _ _).2 ⟨ads, hads, hout⟩] at h
    simp at h

theorem callAll_error {s : St V W} {m : ℕ} {args : List Ref} {kwargs : List (String × Ref)} {cs : List Ctx} {e : EErr}
    (h : callAll sem s m args kwargs cs = .error e) : ∃ c ∈ cs, callOne sem s m args kwargs c = .error e := by
  induction cs with
  | nil => simp [callAll] at h
  | cons c cs ih =>
    simp only [callAll, bind, Except.bind] at h
    cases h1 : callOne sem s m args kwargs c with
    | error e' => rw [h1] at h; rw [← Except.error.inj h]; exact ⟨c, by simp, h1⟩
    | ok d =>
      rw [h1] at h
      simp only at h
      cases h2 : callAll sem s m args kwargs cs with
      | error e' =>
        rw [h2] at h
        simp only [Except.error.injEq] at h
        subst h
        obtain ⟨c', hc', h3⟩ := ih h2
        exact ⟨c', by simp [hc'], h3⟩
      | ok rest => rw [h2] at h; simp at h

/-- Why a node of the program can fail. -/
def NodeFailure (sem : Sem V W) (g : Graph) (inp : String → List V) (wAt : ℕ → W) (ctxs : ℕ → List Ctx) (PC : List Ctx) (P : List ℕ)
    (n : Node) (w : W) : Prop :=
  (∃ r ∈ n.allArgs, ∃ r' a c d, Ref.Sub (.attr r' a) r ∧ Avail g ctxs PC P c r' ∧ Den sem g inp wAt c r' d ∧ sem.extract a d = none) ∨
  (∃ d, n.delegate = some d ∧ n.isModule = true ∧
    ((∃ c ∈ d.contexts, ∃ ads, List.Forall₂ (Den sem g inp wAt c) n.allArgs ads ∧
        ¬ ∃ b, BundleRel n.args.length (n.kwargs.map (·.1)) ads b) ∨
     ∃ bundles, List.Forall₂ (fun c b => ∃ ads, List.Forall₂ (Den sem g inp wAt c) n.allArgs ads ∧
        BundleRel n.args.length (n.kwargs.map (·.1)) ads b) d.contexts bundles ∧ sem.optimize w d.fn n.target bundles = none)) ∨
  (∃ w1, ((n.delegate = none ∨ n.isModule = false) ∧ w1 = w ∨ ∃ d bundles, n.delegate = some d ∧ n.isModule = true ∧
      List.Forall₂ (fun c b => ∃ ads, List.Forall₂ (Den sem g inp wAt c) n.allArgs ads ∧
        BundleRel n.args.length (n.kwargs.map (·.1)) ads b) d.contexts bundles ∧ sem.optimize w d.fn n.target bundles = some w1) ∧
    ∃ c ∈ ctxs n.id, ∃ ads, List.Forall₂ (Den sem g inp wAt c) n.allArgs ads ∧
      ¬ ∃ out, CallRel sem w1 c n.target n.args.length (n.kwargs.map (·.1)) ads out)

theorem node_progress {s : St V W} {n : Node} (h : RInv (Den sem g inp wAt) g ctxs PC P s.reg)
    (hl : ∀ r ∈ n.allArgs, Loadable g ctxs PC P r)
    (hc : ∀ c ∈ ctxs n.id, ∀ r ∈ n.allArgs, Avail g ctxs PC P c r ∨ ∃ k, r = .const k)
    (hd : ∀ d, n.delegate = some d → n.isModule = true → ∀ c ∈ d.contexts, ∀ r ∈ n.allArgs, Avail g ctxs PC P c r ∨ ∃ k, r = .const k) :
    (∃ s', reaches sem (scheduleNode ctxs n) s = some s' ∧ ((n.delegate = none ∨ n.isModule = false) ∧ s'.w = s.w ∨
      ∃ d bundles, n.delegate = some d ∧ n.isModule = true ∧ List.Forall₂ (fun c b => ∃ ads, List.Forall₂ (Den sem g inp wAt c) n.allArgs ads ∧
        BundleRel n.args.length (n.kwargs.map (·.1)) ads b) d.contexts bundles ∧ sem.optimize s.w d.fn n.target bundles = some s'.w)) ∨
    ∃ s' e, run sem (scheduleNode ctxs n) s = (s', .error e) ∧ Benign e ∧ NodeFailure sem g inp wAt ctxs PC P n s.w := by
  unfold scheduleNode
  have hla : ∀ r ∈ n.args, Loadable g ctxs PC P r := fun r hr => hl r (by simp [Node.allArgs, hr])
  have hlk : ∀ r ∈ n.kwargs.map (·.2), Loadable g ctxs PC P r := fun r hr => hl r (by unfold Node.allArgs; exact List.mem_append.2 (Or.inr hr))
  rcases scheduleRefs_progress n.args h hla with ⟨s1, h1⟩ | ⟨s1, h1, r, hr, h2⟩
  swap
  · right
    refine ⟨s1, _, by rw [List.append_assoc, List.append_assoc]; exact run_append_error h1, Or.inr (Or.inr rfl), Or.inl ⟨r, ?_, h2⟩⟩
    simp [Node.allArgs, hr]
  obtain ⟨hw1, hinv1, hg1, hrdy1⟩ := scheduleRefs_inv n.args h h1
  rcases scheduleRefs_progress _ hinv1 hlk with ⟨s2, h2⟩ | ⟨s2, h2, r, hr, h3⟩
  swap
  · right
    refine ⟨s2, _, by rw [List.append_assoc, List.append_assoc, run_append_reaches h1]; exact run_append_error h2,
      Or.inr (Or.inr rfl), Or.inl ⟨r, ?_, h3⟩⟩
    unfold Node.allArgs; exact List.mem_append.2 (Or.inr hr)
  obtain ⟨hw2, hinv2, hg2, hrdy2⟩ := scheduleRefs_inv _ hinv1 h2
  have hrdy : ∀ r ∈ n.allArgs, Ready g ctxs PC P s2.reg r := by
    intro r hr
    rcases List.mem_append.1 hr with hr | hr
    · exact (hrdy1 r hr).grow hg2
    · exact hrdy2 r hr
  have hwe : s2.w = s.w := hw2.trans hw1
  have h12 : reaches sem (n.args.flatMap scheduleRef ++ (n.kwargs.map (·.2)).flatMap scheduleRef) s = some s2 := by
    rw [reaches_append, h1]; exact h2
  -- the delegate
  set opt : List Instr := match n.delegate, n.isModule with
    | some d, true => [.optimize n.target n.args n.kwargs d]
    | _, _ => [] with hopt
  have hoptcases : (∃ w1, reaches sem opt s2 = some ⟨w1, s2.reg⟩ ∧ ((n.delegate = none ∨ n.isModule = false) ∧ w1 = s.w ∨ ∃ d bundles, n.delegate = some d ∧ n.isModule = true ∧
      List.Forall₂ (fun c b => ∃ ads, List.Forall₂ (Den sem g inp wAt c) n.allArgs ads ∧
        BundleRel n.args.length (n.kwargs.map (·.1)) ads b) d.contexts bundles ∧ sem.optimize s.w d.fn n.target bundles = some w1)) ∨
      ∃ s' e, run sem opt s2 = (s', .error e) ∧ Benign e ∧ NodeFailure sem g inp wAt ctxs PC P n s.w := by
    cases hde : n.delegate with
    | none =>
      left
      rw [hde] at hopt
      exact ⟨s2.w, by rw [hopt]; rfl, Or.inl ⟨Or.inl rfl, hwe⟩⟩
    | some d =>
      cases him : n.isModule with
      | false =>
        left
        rw [hde, him] at hopt
        exact ⟨s2.w, by rw [hopt]; rfl, Or.inl ⟨Or.inr rfl, hwe⟩⟩
      | true =>
        rw [hde, him] at hopt
        simp only at hopt
        rw [hopt]
        have hds : ∀ c ∈ d.contexts, ∃ ads, List.Forall₂ (fun r d => getDataset sem s2.reg c r = .ok d) n.allArgs ads :=
          fun c hcc => datasets_ready hinv2 n.allArgs hrdy (hd d hde him c hcc)
        cases hg : d.contexts.mapM fun c => gather sem s2.reg c n.args n.kwargs with
        | error e =>
          right
          refine ⟨s2, e, run_single (by simp only [exec, hg]), ?_, ?_⟩
          · obtain ⟨c, hcc, hge⟩ := mapM_error _ _ _ hg
            obtain ⟨ads, hads⟩ := hds c hcc
            exact Or.inl (gather_error hads hge)
          · obtain ⟨c, hcc, hge⟩ := mapM_error _ _ _ hg
            obtain ⟨ads, hads⟩ := hds c hcc
            right; left
            refine ⟨d, hde, him, Or.inl ⟨c, hcc, ads, hads.imp fun r d hd => getDataset_den hinv2 hd, ?_⟩⟩
            rintro ⟨b, hb⟩
            rw [(gather_ok_iff _ _ _ _ _ _).2 ⟨ads, hads, hb⟩] at hge
            simp at hge
        | ok bundles =>
          have hbs : List.Forall₂ (fun c b => ∃ ads, List.Forall₂ (Den sem g inp wAt c) n.allArgs ads ∧
              BundleRel n.args.length (n.kwargs.map (·.1)) ads b) d.contexts bundles := by
            refine ((mapM_ok_iff _ _ _).1 hg).imp ?_
            intro c b hb
            obtain ⟨ads, h3, h4⟩ := (gather_ok_iff _ _ _ _ _ _).1 hb
            exact ⟨ads, h3.imp fun r d hd => getDataset_den hinv2 hd, h4⟩
          cases ho : sem.optimize s2.w d.fn n.target bundles with
          | none =>
            right
            refine ⟨s2, .userError, run_single (by simp only [exec, hg, ho]), Or.inr (Or.inl rfl), ?_⟩
            right; left
            exact ⟨d, hde, him, Or.inr ⟨bundles, hbs, by rw [← hwe]; exact ho⟩⟩
          | some w1 =>
            left
            refine ⟨w1, by rw [reaches_single]; simp only [exec, hg, ho], Or.inr ⟨d, bundles, rfl, rfl, hbs, by rw [← hwe]; exact ho⟩⟩
  rcases hoptcases with ⟨w1, h3, hw⟩ | ⟨s3, e, h3, h4, h5⟩
  swap
  · right
    exact ⟨s3, e, by rw [List.append_assoc, run_append_reaches h12]; exact run_append_error h3, h4, h5⟩
  have h123 : reaches sem (n.args.flatMap scheduleRef ++ (n.kwargs.map (·.2)).flatMap scheduleRef ++ opt) s = some ⟨w1, s2.reg⟩ := by
    rw [reaches_append, h12]; exact h3
  cases hca : callAll sem ⟨w1, s2.reg⟩ n.target n.args n.kwargs (ctxs n.id) with
  | ok res =>
    left
    refine ⟨⟨w1, s2.reg.storeAll (.node n.id) res⟩, ?_, hw⟩
    rw [reaches_append]
    refine (congrArg (fun x => Option.bind x _) h123).trans ?_
    show reaches sem [_] _ = _
    rw [reaches_single]
    simp only [exec, hca]
  | error e =>
    right
    obtain ⟨c, hcc, hce⟩ := callAll_error hca
    obtain ⟨ads, hads⟩ := datasets_ready (c := c) hinv2 n.allArgs hrdy (hc c hcc)
    obtain ⟨hb, hno⟩ := callOne_error (s := ⟨w1, s2.reg⟩) hads hce
    refine ⟨⟨w1, s2.reg⟩, e, ?_, hb, ?_⟩
    · refine (run_append_reaches h123).trans ?_
      exact run_single (by simp only [exec, hca])
    · right; right
      exact ⟨w1, hw, c, hcc, ads, hads.imp fun r d hd => getDataset_den hinv2 hd, hno⟩

end

/-! ### Contexts of the program -/

theorem mem_programContexts {is : List Instr} {c : Ctx} : c ∈ programContexts is ↔ ∃ i ∈ is, c ∈ i.ctxs := by
  unfold programContexts
  have gen : ∀ (is : List Instr) (acc : List Ctx), c ∈ is.foldl (fun acc i => ctxUnion acc i.ctxs) acc ↔ c ∈ acc ∨ ∃ i ∈ is, c ∈ i.ctxs := by
    intro is
    induction is with
    | nil => simp
    | cons i is ih =>
      intro acc
      rw [List.foldl_cons, ih]
      simp only [List.mem_cons, exists_eq_or_imp, mem_ctxUnion, or_assoc]
  rw [gen]; simp

/-- What a node needs from the nodes before it. -/
def ArgsOk (g : Graph) (ctxs : ℕ → List Ctx) (PC : List Ctx) (P : List ℕ) (n : Node) : Prop :=
  (∀ r ∈ n.allArgs, Loadable g ctxs PC P r) ∧ (∀ c ∈ ctxs n.id, ∀ r ∈ n.allArgs, Avail g ctxs PC P c r ∨ ∃ k, r = .const k) ∧
  ∀ d, n.delegate = some d → n.isModule = true → ∀ c ∈ d.contexts, ∀ r ∈ n.allArgs, Avail g ctxs PC P c r ∨ ∃ k, r = .const k

theorem unwrap_not_attr (r r' : Ref) (a : Attr) : r.unwrap ≠ .attr r' a := by
  induction r with
  | node _ => simp [Ref.unwrap]
  | input _ => simp [Ref.unwrap]
  | const _ => simp [Ref.unwrap]
  | attr r _ ih => simpa [Ref.unwrap] using ih

theorem mem_allArgs {n : Node} {r : Ref} (h : r ∈ n.allArgs) : r ∈ n.args ∨ ∃ k, (k, r) ∈ n.kwargs := by
  rcases List.mem_append.1 h with h | h
  · exact Or.inl h
  · obtain ⟨⟨k, r'⟩, h1, rfl⟩ := List.mem_map.1 h
    exact Or.inr ⟨k, h1⟩

theorem leaves_mem {g : Graph} (hu : g.UniqueIds) {n : Node} (hf : g.find? n.id = some n) (hl : n.id ∈ g.leafIds) : n ∈ g.leaves := by
  obtain ⟨m, hm, hid⟩ := List.mem_map.1 hl
  have hm' : m ∈ g.nodes := (List.mem_filter.1 hm).1
  have := find_of_mem hu hm'
  rw [hid, hf] at this
  rw [Option.some.inj this]; exact hm

theorem args_ok {g : Graph} (hg : WellFormed g) {order : List ℕ} (hv : ValidOrder g order) {pre post : List Node} {n : Node}
    (hns : order.filterMap g.find? = pre ++ n :: post) :
    ArgsOk g (propagateContexts g order) (programContexts (schedule g order)) ((pre.map (·.id)).reverse ++ []) n := by
  have hleaf : ∀ id ∈ order, id ∈ g.leafIds := fun id h => hv.1.mem_iff.1 h
  obtain ⟨hids, hfind⟩ := filterMap_find hg.ids order hleaf
  have hn : n ∈ order.filterMap g.find? := by rw [hns]; simp
  have hnf := hfind n hn
  have hnid : n.id ∈ order := by rw [← hids]; exact List.mem_map.2 ⟨n, hn, rfl⟩
  have hnl := leaves_mem hg.ids hnf (hleaf _ hnid)
  have hnn : n ∈ g.nodes := (List.mem_filter.1 hnl).1
  have hord : order = pre.map (·.id) ++ n.id :: post.map (·.id) := by rw [← hids, hns]; simp
  have hin : ∀ i ∈ scheduleNode (propagateContexts g order) n, i ∈ schedule g order := by
    intro i hi
    unfold schedule
    exact List.mem_append.2 (Or.inl (List.mem_flatMap.2 ⟨n, hn, hi⟩))
  have hpc1 : ∀ c ∈ propagateContexts g order n.id, c ∈ programContexts (schedule g order) := by
    intro c hc
    rw [mem_programContexts]
    refine ⟨.call n.target n.isModule n.args n.kwargs (.node n.id) (propagateContexts g order n.id), hin _ ?_, hc⟩
    unfold scheduleNode; simp
  have hpc2 : ∀ d, n.delegate = some d → n.isModule = true → ∀ c ∈ d.contexts, c ∈ programContexts (schedule g order) := by
    intro d hd him c hc
    rw [mem_programContexts]
    refine ⟨.optimize n.target n.args n.kwargs d, hin _ ?_, hc⟩
    unfold scheduleNode; rw [hd, him]; simp
  have key : ∀ c, (c ∈ propagateContexts g order n.id ∨ ∃ d, n.delegate = some d ∧ n.isModule = true ∧ c ∈ d.contexts) →
      ∀ r ∈ n.allArgs, Avail g (propagateContexts g order) (programContexts (schedule g order)) ((pre.map (·.id)).reverse ++ []) c r ∨
        ∃ k, r = .const k := by
    intro c hc r hr
    cases hru : r.unwrap with
    | attr r' a => exact absurd hru (unwrap_not_attr r r' a)
    | const k => exact Or.inr ⟨k, hg.consts n hnl r hr k hru⟩
    | input x =>
      left
      unfold Avail
      rw [hru]
      refine ⟨hg.inputs n hnl r hr x hru, ?_⟩
      rcases hc with hc | ⟨d, h1, h2, h3⟩
      · exact hpc1 c hc
      · exact hpc2 d h1 h2 c h3
    | node m =>
      left
      have hu : Uses g n.id m := ⟨n, hnn, rfl, r, mem_allArgs hr, hru⟩
      unfold Avail
      rw [hru]
      refine ⟨?_, ?_⟩
      · rw [List.append_nil, List.mem_reverse]
        exact hv.2 _ _ _ hord m hu
      · rw [contexts_exact g hg.ids order hv]
        rcases hc with hc | ⟨d, h1, h2, h3⟩
        · rw [contexts_exact g hg.ids order hv] at hc
          exact .use (hleaf _ hnid) hu hc
        · exact .deleg (hleaf _ hnid) hu hnf h1 h3
  refine ⟨?_, fun c hc => key c (Or.inl hc), fun d h1 h2 c hc => key c (Or.inr ⟨d, h1, h2, hc⟩)⟩
  intro r hr
  obtain ⟨c, hc⟩ := hg.live n.id (hleaf _ hnid)
  rcases key c (Or.inl ((contexts_exact g hg.ids order hv c n.id).2 hc)) r hr with h | h
  · exact Or.inl ⟨c, h⟩
  · exact Or.inr h

theorem nodes_progress {sem : Sem V W} {g : Graph} {inp : String → List V} {wAt : ℕ → W} {ctxs : ℕ → List Ctx} {PC : List Ctx}
    (ns : List Node) (hns : ∀ n ∈ ns, g.find? n.id = some n) (hnd : (ns.map (·.id)).Nodup) {P : List ℕ} {s : St V W}
    (h : RInv (Den sem g inp wAt) g ctxs PC P s.reg) (hw : ∀ id ∈ ns.map (·.id), wAt id = worldsOf sem ctxs ns s id)
    (hok : ∀ pre n post, ns = pre ++ n :: post → ArgsOk g ctxs PC ((pre.map (·.id)).reverse ++ P) n) :
    (∃ s', reaches sem (ns.flatMap (scheduleNode ctxs)) s = some s') ∨
    ∃ s' e, run sem (ns.flatMap (scheduleNode ctxs)) s = (s', .error e) ∧ Benign e := by
  induction ns generalizing s P with
  | nil => exact Or.inl ⟨s, rfl⟩
  | cons n ns ih =>
    obtain ⟨h1, h2, h3⟩ := hok [] n ns rfl
    rw [List.flatMap_cons]
    rcases node_progress h h1 h2 h3 with ⟨s1, h4, _⟩ | ⟨s1, e, h4, h5, _⟩
    · have hwn : wAt n.id = s1.w := by
        rw [hw n.id (by simp)]
        simp only [worldsOf, h4, if_true]
      obtain ⟨hinv, _⟩ := node_inv h (hns n (by simp)) hwn h4
      rw [List.map_cons, List.nodup_cons] at hnd
      rcases ih (fun m hm => hns m (by simp [hm])) hnd.2 hinv (by
        intro id hid
        rw [hw id (by simp only [List.map_cons, List.mem_cons]; exact Or.inr hid)]
        have hne : id ≠ n.id := by rintro rfl; exact hnd.1 hid
        simp only [worldsOf, h4, hne, if_false]) (by
        intro pre m post hp
        have := hok (n :: pre) m post (by rw [hp]; rfl)
        simpa using this) with ⟨s2, h5⟩ | ⟨s2, e, h5, h6⟩
      · left; exact ⟨s2, by rw [reaches_append, h4]; exact h5⟩
      · right; exact ⟨s2, e, by rw [run_append_reaches h4]; exact h5, h6⟩
    · right; exact ⟨s1, e, run_append_error h4, h5⟩

theorem addOutput_total (str : Streams V) (h : ∀ c, (c, Cell.constObj) ∉ str) (acc : List (Ctx × List (List V))) :
    ∃ acc', addOutput acc str = .ok acc' := by
  induction str generalizing acc with
  | nil => exact ⟨acc, rfl⟩
  | cons p rest ih =>
    obtain ⟨c, x⟩ := p
    cases x with
    | constObj => exact absurd (by simp) (h c)
    | data d => simp only [addOutput]; exact ih (fun c' hc' => h c' (by simp [hc'])) _

theorem collectOutputs_total {reg : Reg V} (outs : List Ref) (h : ∀ r ∈ outs, ∃ str, reg r = some str ∧ ∀ c, (c, Cell.constObj) ∉ str)
    (acc : List (Ctx × List (List V))) : ∃ acc', collectOutputs reg outs acc = .ok acc' := by
  induction outs generalizing acc with
  | nil => exact ⟨acc, rfl⟩
  | cons r rs ih =>
    obtain ⟨str, h1, h2⟩ := h r (by simp)
    obtain ⟨acc', h3⟩ := addOutput_total str h2 acc
    simp only [collectOutputs, h1, h3]
    exact ih (fun r' hr' => h r' (by simp [hr'])) acc'

theorem outputs_loadable {g : Graph} (hg : WellFormed g) {order : List ℕ} (hv : ValidOrder g order) (PC : List Ctx) {r : Ref}
    (hr : r ∈ g.outputs) : Avail g (propagateContexts g order) PC (order.reverse ++ []) 0 r := by
  obtain ⟨n, hn, hrn⟩ := hg.outputs r hr
  unfold Avail
  rw [hrn]
  simp only [List.append_nil, List.mem_reverse]
  exact ⟨hv.1.mem_iff.2 hn, (contexts_exact g hg.ids order hv 0 n).2 (.out hr hrn)⟩

theorem collect_ready {sem : Sem V W} {inp : String → List V} {wAt : ℕ → W} {PC : List Ctx} {g : Graph} (hg : WellFormed g)
    {order : List ℕ} (hv : ValidOrder g order) {reg : Reg V}
    (hinv : RInv (Den sem g inp wAt) g (propagateContexts g order) PC (order.reverse ++ []) reg)
    (hready : ∀ r ∈ g.outputs, Ready g (propagateContexts g order) PC (order.reverse ++ []) reg r) :
    ∃ per, collectOutputs reg g.outputs [] = .ok per := by
  apply collectOutputs_total
  intro r hr
  obtain ⟨str, h1, _⟩ := hready r hr 0 (outputs_loadable hg hv PC hr)
  refine ⟨str, h1, ?_⟩
  intro c hc
  rcases hinv.sound r str c _ h1 hc with ⟨k, rfl, _⟩ | ⟨d, hd, _⟩
  · obtain ⟨n, _, hrn⟩ := hg.outputs _ hr
    simp [Ref.unwrap] at hrn
  · simp at hd

open Classical in
theorem outputs_spec {sem : Sem V W} {inp : String → List V} {wAt : ℕ → W} {PC : List Ctx} {g : Graph} (hg : WellFormed g)
    {order : List ℕ} (hv : ValidOrder g order) {reg : Reg V}
    (hinv : RInv (Den sem g inp wAt) g (propagateContexts g order) PC (order.reverse ++ []) reg)
    (hready : ∀ r ∈ g.outputs, Ready g (propagateContexts g order) PC (order.reverse ++ []) reg r)
    {per : List (Ctx × List (List V))} (hco : collectOutputs reg g.outputs [] = .ok per) :
    (per.map (·.1)).Nodup ∧ ∀ c, ∃ ds, List.Forall₂ (Den sem g inp wAt c) (g.outputs.filter fun r => NeededRef g c r) ds ∧
      per.lookup c = if ds = [] then none else some ds := by
  have hav : ∀ r ∈ g.outputs, ∀ c, Avail g (propagateContexts g order) PC (order.reverse ++ []) c r ↔ NeededRef g c r := by
    intro r hr c
    obtain ⟨n, hn, hrn⟩ := hg.outputs r hr
    unfold Avail NeededRef
    rw [hrn]
    simp only [List.append_nil, List.mem_reverse, Ref.node.injEq]
    rw [contexts_exact g hg.ids order hv]
    constructor
    · rintro ⟨_, h⟩; exact ⟨n, rfl, h⟩
    · rintro ⟨n', rfl, h⟩; exact ⟨hv.1.mem_iff.2 hn, h⟩
  obtain ⟨hnd, hper⟩ := collectOutputs_spec (reg := reg) (Den sem g inp wAt) (NeededRef g) g.outputs (by
    intro r hr str hs
    refine ⟨hinv.keys r str hs, ?_⟩
    intro c
    by_cases hc : NeededRef g c r
    · left
      obtain ⟨str', h5, h6⟩ := hready r hr c ((hav r hr c).2 hc)
      rw [hs] at h5
      obtain rfl := Option.some.inj h5
      obtain ⟨⟨c', x⟩, hx, rfl⟩ := List.mem_map.1 h6
      rcases hinv.sound r str c' x hs hx with ⟨k, rfl, _⟩ | ⟨d, rfl, hd, _⟩
      · obtain ⟨n, _, hrn⟩ := hg.outputs _ hr
        simp [Ref.unwrap] at hrn
      · exact ⟨d, lookup_of_mem (hinv.keys r str hs) hx, hd, hc⟩
    · right
      refine ⟨?_, hc⟩
      cases hl : str.lookup c with
      | none => rfl
      | some x =>
        exfalso
        rcases hinv.sound r str c x hs (mem_of_lookup hl) with ⟨k, rfl, _⟩ | ⟨d, _, _, hd⟩
        · obtain ⟨n, _, hrn⟩ := hg.outputs _ hr
          simp [Ref.unwrap] at hrn
        · exact hc ((hav r hr c).1 hd)) [] per (by simp) hco
  refine ⟨hnd, fun c => ?_⟩
  obtain ⟨ds, h1, h2⟩ := hper c
  refine ⟨ds, h1, ?_⟩
  simpa [collected] using h2

/-! ### Properties -/

/-- **C20.** Running a well-formed graph with acceptable inputs, in any valid order, never fails inside the engine: every activation is
there when it is used, and the run ends. The only exceptions come from called modules and delegates (`userError`), from accessing a
missing item or attribute of a value (`lookupError`), and from streams of different lengths (`valueError`). -/
theorem run_never_misses_an_activation (sem : Sem V W) (g : Graph) (hg : WellFormed g) (order : List ℕ) (hv : ValidOrder g order)
    (args : List (RawInput V)) (kwargs : List (String × RawInput V)) (hk : (kwargs.map (·.1)).Nodup)
    (hacc : Acceptable g.inputs args kwargs) (w w' : W) (e : EErr) (h : runGraph sem g order w args kwargs = (w', .error e)) :
    e = .valueError ∨ e = .userError ∨ e = .lookupError := by
  unfold runGraph at h
  simp only at h
  cases hp : prepareRegister g.inputs args kwargs (programContexts (schedule g order)) with
  | error e' =>
    exfalso
    obtain ⟨b, hb⟩ := (bind_accepts_iff g.inputs args kwargs hk).1.2 hacc
    unfold prepareRegister at hp
    rw [hb] at hp
    simp at hp
  | ok reg =>
    rw [hp] at h
    simp only [Prod.mk.injEq] at h
    obtain ⟨inp, hinp⟩ : ∃ inp : String → List V, ∀ x v, Gives g.inputs args kwargs x v → inp x = v.dataset := by
      classical
      obtain ⟨b, hb⟩ := (bind_accepts_iff g.inputs args kwargs hk).1.2 hacc
      obtain ⟨hperm, hmem⟩ := bind_once g.inputs hg.names args kwargs b hk hb
      refine ⟨fun x => (b.lookup x).elim [] (·.dataset), ?_⟩
      intro x v hv
      have hm := (hmem x v).2 hv
      have hnd : (b.map (·.1)).Nodup := hperm.nodup_iff.2 hg.names
      have : b.lookup x = some v := by
        clear hb hmem hperm hp h
        induction b with
        | nil => simp at hm
        | cons p rest ih =>
          obtain ⟨k, y⟩ := p
          rw [List.map_cons, List.nodup_cons] at hnd
          rw [List.lookup_cons]
          rcases List.mem_cons.1 hm with h1 | h1
          · obtain ⟨rfl, rfl⟩ := Prod.mk.inj h1; simp
          · have hne : x ≠ k := by rintro rfl; exact hnd.1 (List.mem_map.2 ⟨_, h1, rfl⟩)
            have : (x == k) = false := by simpa using hne
            rw [this]; exact ih h1 hnd.2
      simp only [this, Option.elim]
    have hleaf : ∀ id ∈ order, id ∈ g.leafIds := fun id h => hv.1.mem_iff.1 h
    obtain ⟨hids, hfind⟩ := filterMap_find hg.ids order hleaf
    have hinv0 : RInv (Den sem g inp (worldsOf sem (propagateContexts g order) (order.filterMap g.find?) ⟨w, reg⟩)) g
        (propagateContexts g order) (programContexts (schedule g order)) [] (St.reg ⟨w, reg⟩) := initial_inv hg.names hk hinp hp
    have hnodup : ((order.filterMap g.find?).map (·.id)).Nodup := by rw [hids]; exact valid_nodup hg.ids hv
    have hsched : schedule g order = (order.filterMap g.find?).flatMap (scheduleNode (propagateContexts g order)) ++
      (if g.outputs.isEmpty then [] else g.outputs.flatMap scheduleRef ++ [.ret g.outputs]) := rfl
    rw [hsched] at h
    rcases nodes_progress _ hfind hnodup hinv0 (fun id _ => rfl) (fun pre n post hp => args_ok hg hv hp) with
      ⟨s1, h1⟩ | ⟨s1, e', h1, h2⟩
    · rw [run_append_reaches h1] at h
      obtain ⟨hinv, _⟩ := nodes_inv _ hfind hnodup hinv0 (fun id _ => rfl) h1
      rw [hids] at hinv
      by_cases ho : g.outputs.isEmpty
      · rw [if_pos ho] at h; simp [run] at h
      · rw [if_neg ho] at h
        rcases scheduleRefs_progress g.outputs hinv (fun r hr => Or.inl ⟨0, outputs_loadable hg hv _ hr⟩) with
          ⟨s2, h3⟩ | ⟨s2, h3, _⟩
        · obtain ⟨_, hinv2, _, hready⟩ := scheduleRefs_inv g.outputs hinv h3
          rw [run_append_reaches h3] at h
          obtain ⟨per, hper⟩ := collect_ready hg hv hinv2 hready
          left
          simp only [run, exec, returnOutputs, bind, Except.bind, hper] at h
          cases hm : per.mapM mergeContext with
          | ok o => rw [hm] at h; simp at h
          | error e' =>
            rw [hm] at h
            simp only [Except.error.injEq] at h
            rw [← h.2]
            obtain ⟨p, _, hpe⟩ := mapM_error _ _ _ hm
            unfold mergeContext at hpe
            cases hme : merge p.2 with
            | ok rows => rw [hme] at hpe; simp at hpe
            | error e2 =>
              rw [hme] at hpe
              simp only [Except.error.injEq] at hpe
              rw [← hpe]
              exact (merge_spec p.2).2.2 e2 hme
        · rw [run_append_error h3] at h
          simp only [Except.error.injEq] at h
          exact Or.inr (Or.inr h.2.symm)
    · rw [run_append_error h1] at h
      simp only [Except.error.injEq] at h
      rw [← h.2]; exact h2

/-! ### Completeness -/

theorem bundles_unique {sem : Sem V W} {g : Graph} {inp : String → List V} {wAt : ℕ → W} {n : Node} {cs : List Ctx} {b1 b2 : List (Bundle V)}
    (h1 : List.Forall₂ (fun c b => ∃ ads, List.Forall₂ (Den sem g inp wAt c) n.allArgs ads ∧
      BundleRel n.args.length (n.kwargs.map (·.1)) ads b) cs b1)
    (h2 : List.Forall₂ (fun c b => ∃ ads, List.Forall₂ (Den sem g inp wAt c) n.allArgs ads ∧
      BundleRel n.args.length (n.kwargs.map (·.1)) ads b) cs b2) : b1 = b2 := by
  induction h1 generalizing b2 with
  | nil => cases h2; rfl
  | cons h _ ih =>
    cases h2 with
    | cons h' h'' =>
      obtain ⟨ads, h3, h4⟩ := h
      obtain ⟨ads', h5, h6⟩ := h'
      obtain rfl := dens_unique h3 h5
      rw [bundleRel_unique h4 h6, ih h'']

theorem forall2_mem_left {α β : Type} {R : α → β → Prop} {l : List α} {m : List β} (h : List.Forall₂ R l m) {a : α} (ha : a ∈ l) :
    ∃ b, R a b := by
  induction h with
  | nil => simp at ha
  | cons h _ ih =>
    rcases List.mem_cons.1 ha with rfl | ha
    · exact ⟨_, h⟩
    · exact ih ha

theorem runsTo_cons {sem : Sem V W} {g : Graph} {inp : String → List V} {wAt : ℕ → W} {w w' : W} {n : Node} {rest : List ℕ}
    (hf : g.find? n.id = some n) (h : RunsTo sem g inp wAt w (n.id :: rest) w') :
    RunsTo sem g inp wAt (wAt n.id) rest w' ∧ ((n.delegate = none ∨ n.isModule = false) ∧ wAt n.id = w ∨
      ∃ d bundles, n.delegate = some d ∧ n.isModule = true ∧ List.Forall₂ (fun c b => ∃ ads, List.Forall₂ (Den sem g inp wAt c) n.allArgs ads ∧
        BundleRel n.args.length (n.kwargs.map (·.1)) ads b) d.contexts bundles ∧ sem.optimize w d.fn n.target bundles = some (wAt n.id)) := by
  cases h with
  | plain hf' hd hw hr =>
    rw [hf] at hf'
    obtain rfl := Option.some.inj hf'
    exact ⟨hw ▸ hr, Or.inl ⟨hd, hw⟩⟩
  | deleg hf' hd hm hb ho hw hr =>
    rw [hf] at hf'
    obtain rfl := Option.some.inj hf'
    exact ⟨hw ▸ hr, Or.inr ⟨_, _, hd, hm, hb, hw ▸ ho⟩⟩

theorem nodes_complete {sem : Sem V W} {g : Graph} {inp : String → List V} {wAt : ℕ → W} {ctxs : ℕ → List Ctx} {PC : List Ctx}
    (hbase : ∀ P c r, Avail g ctxs PC P c r → BaseIn g c r) (hctx : ∀ c n, c ∈ ctxs n → Needed g c n) (hdef : Defined sem g inp wAt)
    (ns : List Node) (hns : ∀ n ∈ ns, g.find? n.id = some n) (hl : ∀ n ∈ ns, n ∈ g.leaves) {P : List ℕ} {s : St V W}
    (h : RInv (Den sem g inp wAt) g ctxs PC P s.reg)
    (hok : ∀ pre n post, ns = pre ++ n :: post → ArgsOk g ctxs PC ((pre.map (·.id)).reverse ++ P) n) (w' : W)
    (hrt : RunsTo sem g inp wAt s.w (ns.map (·.id)) w') :
    ∃ s', reaches sem (ns.flatMap (scheduleNode ctxs)) s = some s' ∧ s'.w = w' ∧
      RInv (Den sem g inp wAt) g ctxs PC ((ns.map (·.id)).reverse ++ P) s'.reg := by
  induction ns generalizing s P with
  | nil =>
    cases hrt
    exact ⟨s, rfl, rfl, h⟩
  | cons n ns ih =>
    obtain ⟨h1, h2, h3⟩ := hok [] n ns rfl
    have hf := hns n (by simp)
    have hln := hl n (by simp)
    rw [List.map_cons] at hrt
    obtain ⟨hrt', hwc⟩ := runsTo_cons hf hrt
    have hworld : ∀ w1, ((n.delegate = none ∨ n.isModule = false) ∧ w1 = s.w ∨ ∃ d bundles, n.delegate = some d ∧ n.isModule = true ∧
        List.Forall₂ (fun c b => ∃ ads, List.Forall₂ (Den sem g inp wAt c) n.allArgs ads ∧
          BundleRel n.args.length (n.kwargs.map (·.1)) ads b) d.contexts bundles ∧ sem.optimize s.w d.fn n.target bundles = some w1) →
        w1 = wAt n.id := by
      intro w1 hw1
      rcases hw1 with ⟨hd, rfl⟩ | ⟨d, bs, hd, hm, hb, ho⟩
      · rcases hwc with ⟨_, hw⟩ | ⟨d', _, hd', hm', _⟩
        · exact hw.symm
        · rcases hd with hd | hd
          · rw [hd] at hd'; simp at hd'
          · rw [hd] at hm'; simp at hm'
      · rcases hwc with ⟨hd' | hd', _⟩ | ⟨d', bs', hd', _, hb', ho'⟩
        · rw [hd] at hd'; simp at hd'
        · rw [hm] at hd'; simp at hd'
        · rw [hd] at hd'
          obtain rfl := Option.some.inj hd'
          obtain rfl := bundles_unique hb hb'
          rw [ho] at ho'
          exact Option.some.inj ho'
    rcases node_progress h h1 h2 h3 with ⟨s1, h4, h5⟩ | ⟨s1, e, h4, _, h5⟩
    · have hwn : wAt n.id = s1.w := (hworld _ h5).symm
      obtain ⟨hinv, _⟩ := node_inv h hf hwn h4
      obtain ⟨s2, h6, h7, h8⟩ := ih (fun m hm => hns m (by simp [hm])) (fun m hm => hl m (by simp [hm])) hinv (by
        intro pre m post hp
        have := hok (n :: pre) m post (by rw [hp]; rfl)
        simpa using this) (by rw [← hwn]; exact hrt')
      refine ⟨s2, by rw [List.flatMap_cons, reaches_append, h4]; exact h6, h7, by simpa using h8⟩
    · exfalso
      rcases h5 with ⟨r, hr, r', a, c, d, hsub, hav, hd, hx⟩ | ⟨d, hd, hm, h6⟩ | ⟨w1, hw1, c, hc, ads, hads, hno⟩
      · obtain ⟨d', hd'⟩ := hdef.args n hln r hr _ hsub c (hbase _ _ _ (avail_attr.2 hav))
        cases hd' with
        | attr hd2 hx2 =>
          rw [← extract_iff, denotation_unique hd2 hd, hx] at hx2
          simp at hx2
      · rcases hwc with ⟨hd' | hd', _⟩ | ⟨d', bs', hd', _, hb', ho'⟩
        · rw [hd] at hd'; simp at hd'
        · rw [hm] at hd'; simp at hd'
        · rw [hd] at hd'
          obtain rfl := Option.some.inj hd'
          rcases h6 with ⟨c, hc, ads, hads, hno⟩ | ⟨bs, hb, ho⟩
          · obtain ⟨b, ads', h7, h8⟩ := forall2_mem_left hb' hc
            obtain rfl := dens_unique hads h7
            exact hno ⟨b, h8⟩
          · obtain rfl := bundles_unique hb hb'
            rw [ho] at ho'
            simp at ho'
      · obtain ⟨out, hout⟩ := hdef.nodes c n.id (List.mem_map.2 ⟨n, hln, rfl⟩) (hctx c n.id hc)
        cases hout with
        | @node _ n' ads' _ hf' hlen hargs hcall =>
          rw [hf] at hf'
          obtain rfl := Option.some.inj hf'
          have hads' : List.Forall₂ (Den sem g inp wAt c) n.allArgs ads' := by
            rw [List.forall₂_iff_get]
            refine ⟨hlen.symm, ?_⟩
            intro i hi hi'
            exact hargs i _ _ (List.getElem?_eq_getElem hi) (List.getElem?_eq_getElem hi')
          obtain rfl := dens_unique hads hads'
          rw [← hworld w1 hw1] at hcall
          exact hno ⟨out, hcall⟩

open Classical in
/-- **C20.** Conversely, whenever the graph has a meaning on the given inputs -- every needed value, every accessed attribute and every
delegate call is defined, and the outputs of a context have equally many batches -- the run succeeds and ends in the state the meaning
prescribes. With `scheduled_run_denotes` this determines the result. -/
theorem run_completes (sem : Sem V W) (g : Graph) (hg : WellFormed g) (order : List ℕ) (hv : ValidOrder g order)
    (args : List (RawInput V)) (kwargs : List (String × RawInput V)) (hk : (kwargs.map (·.1)).Nodup)
    (hacc : Acceptable g.inputs args kwargs) (inp : String → List V)
    (hinp : ∀ x v, Gives g.inputs args kwargs x v → inp x = v.dataset) (w w' : W) (wAt : ℕ → W)
    (hrt : RunsTo sem g inp wAt w order w') (hdef : Defined sem g inp wAt)
    (hlen : ∀ c ds, List.Forall₂ (Den sem g inp wAt c) (g.outputs.filter fun r => NeededRef g c r) ds →
      ∀ d ∈ ds, ∀ d' ∈ ds, d.length = d'.length) :
    ∃ res, runGraph sem g order w args kwargs = (w', .ok res) := by
  unfold runGraph
  simp only
  obtain ⟨b, hb⟩ := (bind_accepts_iff g.inputs args kwargs hk).1.2 hacc
  cases hp : prepareRegister g.inputs args kwargs (programContexts (schedule g order)) with
  | error e' =>
    unfold prepareRegister at hp
    rw [hb] at hp
    simp at hp
  | ok reg =>
    simp only
    have hleaf : ∀ id ∈ order, id ∈ g.leafIds := fun id h => hv.1.mem_iff.1 h
    obtain ⟨hids, hfind⟩ := filterMap_find hg.ids order hleaf
    have hinv0 : RInv (Den sem g inp wAt) g (propagateContexts g order) (programContexts (schedule g order)) [] (St.reg ⟨w, reg⟩) :=
      initial_inv hg.names hk hinp hp
    have hsched : schedule g order = (order.filterMap g.find?).flatMap (scheduleNode (propagateContexts g order)) ++
      (if g.outputs.isEmpty then [] else g.outputs.flatMap scheduleRef ++ [.ret g.outputs]) := rfl
    have hlv : ∀ n ∈ order.filterMap g.find?, n ∈ g.leaves := by
      intro n hn
      refine leaves_mem hg.ids (hfind n hn) (hleaf _ ?_)
      rw [← hids]; exact List.mem_map.2 ⟨n, hn, rfl⟩
    have hstore : ∀ (r : Ref) (i : Instr), i ∈ scheduleRef r → ∀ c ∈ i.ctxs, c = 0 ∧ ∃ k, r.unwrap = .const k := by
      intro r
      induction r with
      | node _ => simp [scheduleRef]
      | input _ => simp [scheduleRef]
      | const k => simp [scheduleRef, Instr.ctxs, Ref.unwrap]
      | attr r a ih =>
        intro i hi
        rcases List.mem_append.1 hi with hi | hi
        · exact ih i hi
        · rw [List.mem_singleton.1 hi]; simp [Instr.ctxs]
    have hact : ∀ c ∈ programContexts (schedule g order), Active g c := by
      intro c hc
      obtain ⟨i, hi, hci⟩ := mem_programContexts.1 hc
      rw [hsched] at hi
      rcases List.mem_append.1 hi with hi | hi
      · obtain ⟨n, hn, hi⟩ := List.mem_flatMap.1 hi
        unfold scheduleNode at hi
        rcases List.mem_append.1 hi with hi | hi
        · rcases List.mem_append.1 hi with hi | hi
          · right; right
            rcases List.mem_append.1 hi with hi | hi
            · obtain ⟨r, hr, hi⟩ := List.mem_flatMap.1 hi
              obtain ⟨h1, k, h2⟩ := hstore r i hi c hci
              exact ⟨h1, n, hlv n hn, r, List.mem_append.2 (Or.inl hr), k, h2⟩
            · obtain ⟨r, hr, hi⟩ := List.mem_flatMap.1 hi
              obtain ⟨h1, k, h2⟩ := hstore r i hi c hci
              exact ⟨h1, n, hlv n hn, r, List.mem_append.2 (Or.inr hr), k, h2⟩
          · right; left
            cases hd : n.delegate with
            | none => rw [hd] at hi; simp at hi
            | some d =>
              cases hm : n.isModule with
              | false => rw [hd, hm] at hi; simp at hi
              | true =>
                rw [hd, hm] at hi
                simp only [List.mem_singleton] at hi
                subst hi
                exact ⟨n, hlv n hn, d, hd, hm, hci⟩
        · left
          rw [List.mem_singleton] at hi
          subst hi
          exact ⟨n.id, List.mem_map.2 ⟨n, hlv n hn, rfl⟩, (contexts_exact g hg.ids order hv c n.id).1 hci⟩
      · by_cases ho : g.outputs.isEmpty
        · rw [if_pos ho] at hi; simp at hi
        · rw [if_neg ho] at hi
          rcases List.mem_append.1 hi with hi | hi
          · obtain ⟨r, hr, hi⟩ := List.mem_flatMap.1 hi
            obtain ⟨_, k, h2⟩ := hstore r i hi c hci
            obtain ⟨n, _, h3⟩ := hg.outputs r hr
            rw [h2] at h3; simp at h3
          · rw [List.mem_singleton.1 hi] at hci; simp [Instr.ctxs] at hci
    have hbase : ∀ P c r, Avail g (propagateContexts g order) (programContexts (schedule g order)) P c r → BaseIn g c r := by
      intro P c r h
      unfold Avail at h
      cases hu : r.unwrap with
      | attr r' a => exact absurd hu (unwrap_not_attr r r' a)
      | const k => rw [hu] at h; exact h.elim
      | node n => rw [hu] at h; exact Or.inl ⟨n, hu, (contexts_exact g hg.ids order hv c n).1 h.2⟩
      | input x => rw [hu] at h; exact Or.inr ⟨x, hu, hact c h.2⟩
    obtain ⟨s1, h1, hw1, hinv⟩ := nodes_complete hbase (fun c n h => (contexts_exact g hg.ids order hv c n).1 h) hdef _ hfind hlv hinv0
      (fun pre n post hp => args_ok hg hv hp) w' (by rw [hids]; exact hrt)
    rw [hids] at hinv
    rw [hsched, run_append_reaches h1]
    by_cases ho : g.outputs.isEmpty
    · rw [if_pos ho]
      exact ⟨none, Prod.ext hw1 rfl⟩
    · rw [if_neg ho]
      rcases scheduleRefs_progress g.outputs hinv (fun r hr => Or.inl ⟨0, outputs_loadable hg hv _ hr⟩) with
        ⟨s2, h3⟩ | ⟨s2, _, r, hr, r', a, c, d, hsub, hav, hd, hx⟩
      · obtain ⟨hw2, hinv2, _, hready⟩ := scheduleRefs_inv g.outputs hinv h3
        rw [run_append_reaches h3]
        obtain ⟨per, hper⟩ := collect_ready hg hv hinv2 hready
        obtain ⟨hnd, hspec⟩ := outputs_spec hg hv hinv2 hready hper
        have hm : ∃ o, per.mapM mergeContext = .ok o := by
          cases hm : per.mapM mergeContext with
          | ok o => exact ⟨o, rfl⟩
          | error e =>
            exfalso
            obtain ⟨p, hp, hpe⟩ := mapM_error _ _ _ hm
            obtain ⟨ds, h5, h6⟩ := hspec p.1
            have hlk := lookup_of_mem_gen hnd (show (p.1, p.2) ∈ per from hp)
            rw [hlk] at h6
            by_cases hds : ds = []
            · rw [if_pos hds] at h6; simp at h6
            · rw [if_neg hds] at h6
              obtain ⟨rows, hrows⟩ := (merge_spec ds).2.1.2 ⟨hds, hlen p.1 ds h5⟩
              unfold mergeContext at hpe
              rw [Option.some.inj h6, hrows] at hpe
              simp at hpe
        obtain ⟨o, hm⟩ := hm
        refine ⟨some o, ?_⟩
        simp only [run, exec, returnOutputs, bind, Except.bind, hper, hm]
        exact Prod.ext (hw2.trans hw1) rfl
      · exfalso
        obtain ⟨d', hd'⟩ := hdef.outputs r hr _ hsub c (hbase _ _ _ (avail_attr.2 hav))
        cases hd' with
        | attr hd2 hx2 =>
          rw [← extract_iff, denotation_unique hd2 hd, hx] at hx2
          simp at hx2

end FF.Orch
