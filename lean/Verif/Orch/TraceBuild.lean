import Verif.Orch.TraceGraph

/-! # Tracing: what the builder has after each step -/

namespace FF.Trace

open FF.Orch

variable {V W : Type}

/-! ### The state of the builder -/

/-- The graph is well formed and what is known of nodes is in it. -/
structure Ok (s : Builder) : Prop where
  graph : GraphOk s.graph s.next
  refs : ∀ i r, Dict.get s.refs i = some r → Fine s.graph r

/-- Nodes are added, no inputs or outputs. -/
structure Step (s s' : Builder) : Prop where
  ok : Ok s'
  next : s.next ≤ s'.next
  ext : Ext s.graph s'.graph
  inputs : s'.graph.inputs = s.graph.inputs
  outputs : s'.graph.outputs = s.graph.outputs
  refs : s'.refs = s.refs

/-- Every node with a value is at a reference with that value. -/
def Agrees (sem : Sem V W) (w : W) (c : Ctx) (b : String → V) (env : ℕ → Option V) (s : Builder) : Prop :=
  ∀ i v, env i = some v → ∃ r, Dict.get s.refs i = some r ∧ Val sem s.graph w c b r v

theorem graphOk_mono {g : Graph} {k k' : ℕ} (h : GraphOk g k) (hk : k ≤ k') : GraphOk g k' :=
  ⟨h.closed, h.plain, fun n hn => by have := h.fresh n hn; omega, h.simple, h.ordered⟩

theorem Ok.mono {s : Builder} (h : Ok s) {k : ℕ} (hk : s.next ≤ k) : Ok { s with next := k } := ⟨graphOk_mono h.graph hk, h.refs⟩

theorem Step.refl {s : Builder} (h : Ok s) : Step s s := ⟨h, le_rfl, Ext.refl _, rfl, rfl, rfl⟩

theorem Step.trans {s s' s'' : Builder} (h : Step s s') (h' : Step s' s'') : Step s s'' :=
  ⟨h'.ok, h.next.trans h'.next, h.ext.trans h'.ext, h'.inputs.trans h.inputs, h'.outputs.trans h.outputs, h'.refs.trans h.refs⟩

theorem agrees_step {sem : Sem V W} {w : W} {c : Ctx} {b : String → V} {env : ℕ → Option V} {s s' : Builder} (h : Step s s')
    (ha : Agrees sem w c b env s) : Agrees sem w c b env s' := by
  intro i v hv
  obtain ⟨r, h1, h2⟩ := ha i v hv
  exact ⟨r, by rw [h.refs]; exact h1, val_ext h.ext h2⟩

theorem val_const {sem : Sem V W} {w : W} {c : Ctx} {b : String → V} {g : Graph} {k : ℕ} : Val sem g w c b (.const k) (sem.constVal k) := .const

theorem vals_ext {sem : Sem V W} {w : W} {c : Ctx} {b : String → V} {g g' : Graph} (h : Ext g g') {rs : List Ref} {vs : List V}
    (hv : List.Forall₂ (Val sem g w c b) rs vs) : List.Forall₂ (Val sem g' w c b) rs vs := hv.imp fun _ _ h' => val_ext h h'

/-- Adding a node. -/
theorem add_ok {s s' : Builder} {name : String} {target : ℕ} {m : Bool} {args : List Ref} {kwargs : List (String × Ref)} {r : Ref} (hs : Ok s)
    (ha : ∀ r ∈ args, Fine s.graph r) (hk : ∀ p ∈ kwargs, Fine s.graph p.2) (h : s.add name target m args kwargs = .ok (s', r)) :
    Step s s' ∧ Fine s'.graph r ∧ isNodeRef r = true ∧ ∀ (sem : Sem V W) (w : W) (c : Ctx) (b : String → V) vs kvs v,
      List.Forall₂ (Val sem s.graph w c b) args vs → List.Forall₂ (fun p q => p.1 = q.1 ∧ Val sem s.graph w c b p.2 q.2) kwargs kvs →
      sem.call w c target vs kvs = some v → Live sem w c b s.graph → Live sem w c b s'.graph ∧ Val sem s'.graph w c b r v := by
  unfold Builder.add Graph.addNode at h
  split at h
  · simp at h
  · rename_i g hg
    split_ifs at hg
    simp only [Except.ok.injEq] at hg
    simp only [Except.ok.injEq, Prod.mk.injEq] at h
    obtain ⟨rfl, rfl⟩ := h
    subst hg
    have hall : ∀ r ∈ Node.allArgs { id := s.next, name, target, isModule := m, args, kwargs, delegate := none }, Fine s.graph r := by
      intro r hr
      rcases List.mem_append.1 hr with hr | hr
      · exact ha r hr
      · obtain ⟨p, hp, rfl⟩ := List.mem_map.1 hr
        exact hk p hp
    obtain ⟨h1, h2, h3⟩ := add_graph hs.graph { id := s.next, name, target, isModule := m, args, kwargs, delegate := none } rfl rfl hall
    refine ⟨⟨⟨h1, fun i r hr => fine_ext h2 (hs.refs i r hr)⟩, Nat.le_succ _, h2, rfl, rfl, rfl⟩, h3, rfl, fun sem w c b vs kvs v hv hkv hc hl => ?_⟩
    exact added_val hs.graph { id := s.next, name, target, isModule := m, args, kwargs, delegate := none } rfl h2 hv hkv hc hl

/-! ### Arguments -/

mutual

/-- An argument without nodes has one value. -/
theorem eval_const {P : Lang V} (env env' : ℕ → Option V) : ∀ a : Arg, a.hasNode = false → a.eval P env = a.eval P env'
  | .node _, h => by simp [Arg.hasNode] at h
  | .const _, _ => rfl
  | .tuple l, h => by simp only [Arg.eval]; rw [evalAll_const env env' l h]
  | .list l, h => by simp only [Arg.eval]; rw [evalAll_const env env' l h]
  | .slice a b c, h => by
    simp only [Arg.hasNode, Bool.or_eq_false_iff] at h
    simp only [Arg.eval]
    rw [eval_const env env' a h.1.1, eval_const env env' b h.1.2, eval_const env env' c h.2]
  | .dict _ l, h => by simp only [Arg.eval]; rw [evalAll_const env env' l h]

theorem evalAll_const {P : Lang V} (env env' : ℕ → Option V) : ∀ l : List Arg, anyNode l = false → evalAll P env l = evalAll P env' l
  | [], _ => rfl
  | a :: l, h => by
    simp only [anyNode, Bool.or_eq_false_iff] at h
    simp only [evalAll]
    rw [eval_const env env' a h.1, evalAll_const env env' l h.2]

end

theorem const_ok {t : Callables} {sem : Sem V W} {w : W} {c : Ctx} {P : Lang V} {b : String → V} {env : ℕ → Option V} {g : Graph} {a : Arg} {v : V}
    (hb : Behaves t sem w c P) (ha : a.hasNode = false) (hv : a.eval P env = some v) : Val sem g w c b (.const (t.const a)) v := by
  rw [← hb.const a v (by rw [eval_const _ env a ha]; exact hv)]
  exact val_const

theorem evalAll_cons {P : Lang V} {env : ℕ → Option V} {a : Arg} {l : List Arg} {vs : List V} (h : evalAll P env (a :: l) = some vs) :
    ∃ v vs', a.eval P env = some v ∧ evalAll P env l = some vs' ∧ vs = v :: vs' := by
  simp only [evalAll] at h
  split at h
  · rename_i v vs' h1 h2
    exact ⟨v, vs', h1, h2, by simpa using h.symm⟩
  · simp at h

/-- What conversion of an argument gives. -/
def ConvertOk (V W : Type) (t : Callables) (a : Arg) (s : Builder) (s' : Builder) (r : Ref) : Prop :=
  Step s s' ∧ Fine s'.graph r ∧ ∀ (sem : Sem V W) (w : W) (c : Ctx) (P : Lang V) (b : String → V) env v, Behaves t sem w c P → Agrees sem w c b env s →
    Live sem w c b s.graph → a.eval P env = some v → Live sem w c b s'.graph ∧ Val sem s'.graph w c b r v

def ConvertAllOk (V W : Type) (t : Callables) (l : List Arg) (s : Builder) (s' : Builder) (rs : List Ref) : Prop :=
  Step s s' ∧ (∀ r ∈ rs, Fine s'.graph r) ∧ rs.length = l.length ∧ ∀ (sem : Sem V W) (w : W) (c : Ctx) (P : Lang V) (b : String → V) env vs, Behaves t sem w c P →
    Agrees sem w c b env s → Live sem w c b s.graph → evalAll P env l = some vs → Live sem w c b s'.graph ∧ List.Forall₂ (Val sem s'.graph w c b) rs vs

theorem zip_vals {sem : Sem V W} {w : W} {c : Ctx} {b : String → V} {g : Graph} {rs : List Ref} {vs : List V} (h : List.Forall₂ (Val sem g w c b) rs vs)
    (keys : List String) : List.Forall₂ (fun p q => p.1 = q.1 ∧ Val sem g w c b p.2 q.2) (keys.zip rs) (keys.zip vs) := by
  induction h generalizing keys with
  | nil => simp
  | cons h _ ih =>
    cases keys with
    | nil => simp
    | cons k keys => exact .cons ⟨rfl, h⟩ (ih keys)

theorem zip_fine {g : Graph} {rs : List Ref} (h : ∀ r ∈ rs, Fine g r) (keys : List String) : ∀ p ∈ keys.zip rs, Fine g p.2 :=
  fun p hp => h p.2 (List.of_mem_zip (a := p.1) (b := p.2) hp).2

mutual

theorem convert_ok (t : Callables) : ∀ (a : Arg) (name : String) (s s' : Builder) (r : Ref), Ok s → convert t a name s = .ok (s', r) →
    ConvertOk V W t a s s' r
  | .node i, name, s, s', r, hs, h => by
    simp only [convert] at h
    split at h
    · rename_i r' hr
      simp only [Except.ok.injEq, Prod.mk.injEq] at h
      obtain ⟨rfl, rfl⟩ := h
      refine ⟨.refl hs, hs.refs i _ hr, fun sem w c P b env v _ ha hl hv => ⟨hl, ?_⟩⟩
      obtain ⟨r, h1, h2⟩ := ha i v hv
      rw [hr, Option.some.injEq] at h1
      exact h1 ▸ h2
    · simp at h
  | .const k, name, s, s', r, hs, h => by
    simp only [convert, Except.ok.injEq, Prod.mk.injEq] at h
    obtain ⟨rfl, rfl⟩ := h
    exact ⟨.refl hs, fine_const _ _, fun sem w c P b env v hb _ hl hv => ⟨hl, const_ok hb rfl hv⟩⟩
  | .tuple l, name, s, s', r, hs, h => by
    simp only [convert] at h
    split_ifs at h with hn
    · split at h
      · simp at h
      · rename_i s1 rs h1
        obtain ⟨st, hf, _, hval⟩ := convertAll_ok t l _ s s1 rs hs h1
        obtain ⟨st', hf', _, hval'⟩ := add_ok st.ok hf (by simp) h
        refine ⟨st.trans st', hf', fun sem w c P b env v hb ha hl hv => ?_⟩
        simp only [Arg.eval, Option.map_eq_some_iff] at hv
        obtain ⟨vs, hvs, rfl⟩ := hv
        obtain ⟨hl1, hv1⟩ := hval sem w c P b env vs hb ha hl hvs
        exact hval' sem w c b vs [] _ hv1 .nil (hb.tuple vs) hl1
    · simp only [Except.ok.injEq, Prod.mk.injEq] at h
      obtain ⟨rfl, rfl⟩ := h
      exact ⟨.refl hs, fine_const _ _, fun sem w c P b env v hb _ hl hv => ⟨hl, const_ok hb (by simpa [Arg.hasNode] using hn) hv⟩⟩
  | .list l, name, s, s', r, hs, h => by
    simp only [convert] at h
    split_ifs at h with hn
    · split at h
      · simp at h
      · rename_i s1 rs h1
        obtain ⟨st, hf, _, hval⟩ := convertAll_ok t l _ s s1 rs hs h1
        obtain ⟨st', hf', _, hval'⟩ := add_ok st.ok hf (by simp) h
        refine ⟨st.trans st', hf', fun sem w c P b env v hb ha hl hv => ?_⟩
        simp only [Arg.eval, Option.map_eq_some_iff] at hv
        obtain ⟨vs, hvs, rfl⟩ := hv
        obtain ⟨hl1, hv1⟩ := hval sem w c P b env vs hb ha hl hvs
        exact hval' sem w c b vs [] _ hv1 .nil (hb.list vs) hl1
    · simp only [Except.ok.injEq, Prod.mk.injEq] at h
      obtain ⟨rfl, rfl⟩ := h
      exact ⟨.refl hs, fine_const _ _, fun sem w c P b env v hb _ hl hv => ⟨hl, const_ok hb (by simpa [Arg.hasNode] using hn) hv⟩⟩
  | .slice a1 a2 a3, name, s, s', r, hs, h => by
    simp only [convert] at h
    split_ifs at h with hn
    · split at h
      · simp at h
      · rename_i s1 r1 h1
        split at h
        · simp at h
        · rename_i s2 r2 h2
          split at h
          · simp at h
          · rename_i s3 r3 h3
            obtain ⟨st1, hf1, hval1⟩ := convert_ok t a1 _ s s1 r1 hs h1
            obtain ⟨st2, hf2, hval2⟩ := convert_ok t a2 _ s1 s2 r2 st1.ok h2
            obtain ⟨st3, hf3, hval3⟩ := convert_ok t a3 _ s2 s3 r3 st2.ok h3
            have hf1' := fine_ext (st2.trans st3).ext hf1
            have hf2' := fine_ext st3.ext hf2
            obtain ⟨st', hf', _, hval'⟩ := add_ok st3.ok (by simp) (by simp [hf1', hf2', hf3]) h
            refine ⟨((st1.trans st2).trans st3).trans st', hf', fun sem w c P b env v hb ha hl hv => ?_⟩
            simp only [Arg.eval] at hv
            split at hv
            · rename_i x y z e1 e2 e3
              obtain rfl : P.slice x y z = v := by simpa using hv
              obtain ⟨l1, v1⟩ := hval1 sem w c P b env x hb ha hl e1
              obtain ⟨l2, v2⟩ := hval2 sem w c P b env y hb (agrees_step st1 ha) l1 e2
              obtain ⟨l3, v3⟩ := hval3 sem w c P b env z hb (agrees_step (st1.trans st2) ha) l2 e3
              exact hval' sem w c b [] [("start", x), ("stop", y), ("step", z)] _ .nil
                (.cons ⟨rfl, val_ext (st2.trans st3).ext v1⟩ (.cons ⟨rfl, val_ext st3.ext v2⟩ (.cons ⟨rfl, v3⟩ .nil))) (hb.slice x y z) l3
            · simp at hv
    · simp only [Except.ok.injEq, Prod.mk.injEq] at h
      obtain ⟨rfl, rfl⟩ := h
      exact ⟨.refl hs, fine_const _ _, fun sem w c P b env v hb _ hl hv => ⟨hl, const_ok hb (by simpa [Arg.hasNode] using hn) hv⟩⟩
  | .dict keys l, name, s, s', r, hs, h => by
    simp only [convert] at h
    split_ifs at h with hn
    · split at h
      · simp at h
      · rename_i s1 rs h1
        obtain ⟨st, hf, _, hval⟩ := convertAll_ok t l _ s s1 rs hs h1
        obtain ⟨st', hf', _, hval'⟩ := add_ok st.ok (by simp) (zip_fine hf keys) h
        refine ⟨st.trans st', hf', fun sem w c P b env v hb ha hl hv => ?_⟩
        simp only [Arg.eval, Option.map_eq_some_iff] at hv
        obtain ⟨vs, hvs, rfl⟩ := hv
        obtain ⟨hl1, hv1⟩ := hval sem w c P b env vs hb ha hl hvs
        exact hval' sem w c b [] _ _ .nil (zip_vals hv1 keys) (hb.dict _) hl1
    · simp only [Except.ok.injEq, Prod.mk.injEq] at h
      obtain ⟨rfl, rfl⟩ := h
      exact ⟨.refl hs, fine_const _ _, fun sem w c P b env v hb _ hl hv => ⟨hl, const_ok hb (by simpa [Arg.hasNode] using hn) hv⟩⟩

theorem convertAll_ok (t : Callables) : ∀ (l : List Arg) (names : List String) (s s' : Builder) (rs : List Ref), Ok s → convertAll t l names s = .ok (s', rs) →
    ConvertAllOk V W t l s s' rs
  | [], names, s, s', rs, hs, h => by
    simp only [convertAll, Except.ok.injEq, Prod.mk.injEq] at h
    obtain ⟨rfl, rfl⟩ := h
    refine ⟨.refl hs, by simp, rfl, fun sem w c P b env vs _ _ hl hv => ⟨hl, ?_⟩⟩
    obtain rfl : [] = vs := by simpa [evalAll] using hv
    exact .nil
  | a :: l, names, s, s', rs, hs, h => by
    simp only [convertAll] at h
    split at h
    · simp at h
    · rename_i s1 r1 h1
      split at h
      · simp at h
      · rename_i s2 rs2 h2
        simp only [Except.ok.injEq, Prod.mk.injEq] at h
        obtain ⟨rfl, rfl⟩ := h
        obtain ⟨st1, hf1, hval1⟩ := convert_ok t a _ s s1 r1 hs h1
        obtain ⟨st2, hf2, hlen, hval2⟩ := convertAll_ok t l _ s1 s2 rs2 st1.ok h2
        refine ⟨st1.trans st2, ?_, by simp [hlen], fun sem w c P b env vs hb ha hl hv => ?_⟩
        · intro r hr
          rcases List.mem_cons.1 hr with rfl | hr
          · exact fine_ext st2.ext hf1
          · exact hf2 r hr
        · obtain ⟨v, vs', e1, e2, rfl⟩ := evalAll_cons hv
          obtain ⟨l1, v1⟩ := hval1 sem w c P b env v hb ha hl e1
          obtain ⟨l2, v2⟩ := hval2 sem w c P b env vs' hb (agrees_step st1 ha) l1 e2
          exact ⟨l2, .cons (val_ext st2.ext v1) v2⟩

end

theorem evalArgs_some {P : Lang V} {env : ℕ → Option V} {args : List Arg} {kwargs : List (String × Arg)} {vs : List V} {kvs : List (String × V)}
    (h : evalArgs P env args kwargs = some (vs, kvs)) :
    evalAll P env args = some vs ∧ ∃ ks, evalAll P env (kwargs.map (·.2)) = some ks ∧ kvs = (kwargs.map (·.1)).zip ks := by
  unfold evalArgs at h
  split at h
  · rename_i a b h1 h2
    simp only [Option.some.injEq, Prod.mk.injEq] at h
    obtain ⟨rfl, rfl⟩ := h
    exact ⟨h1, b, h2, rfl⟩
  · simp at h

theorem evalAll_length {P : Lang V} {env : ℕ → Option V} {l : List Arg} {vs : List V} (h : evalAll P env l = some vs) : vs.length = l.length := by
  induction l generalizing vs with
  | nil => simp only [evalAll, Option.some.injEq] at h; simp [← h]
  | cons a l ih =>
    obtain ⟨v, vs', _, e2, rfl⟩ := evalAll_cons h
    simp [ih e2]

theorem evalArgs_length {P : Lang V} {env : ℕ → Option V} {args : List Arg} {kwargs : List (String × Arg)} {vs : List V} {kvs : List (String × V)}
    (h : evalArgs P env args kwargs = some (vs, kvs)) : vs.length + kvs.length = args.length + kwargs.length := by
  obtain ⟨h1, ks, h2, rfl⟩ := evalArgs_some h
  have := evalAll_length h1
  have := evalAll_length h2
  simp_all

/-- The arguments of a node. -/
theorem convertArgs_ok {t : Callables} {name : String} {args : List Arg} {kwargs : List (String × Arg)} {s s' : Builder} {rs : List Ref}
    {ks : List (String × Ref)} (hs : Ok s) (h : convertArgs t name args kwargs s = .ok (s', rs, ks)) :
    Step s s' ∧ (∀ r ∈ rs, Fine s'.graph r) ∧ (∀ p ∈ ks, Fine s'.graph p.2) ∧
    ∀ (sem : Sem V W) (w : W) (c : Ctx) (P : Lang V) (b : String → V) env vs kvs, Behaves t sem w c P → Agrees sem w c b env s →
      Live sem w c b s.graph → evalArgs P env args kwargs = some (vs, kvs) → Live sem w c b s'.graph ∧ List.Forall₂ (Val sem s'.graph w c b) rs vs ∧
      List.Forall₂ (fun p q => p.1 = q.1 ∧ Val sem s'.graph w c b p.2 q.2) ks kvs := by
  unfold convertArgs at h
  split at h
  · simp at h
  · rename_i s1 rs1 h1
    split at h
    · simp at h
    · rename_i s2 ks2 h2
      simp only [Except.ok.injEq, Prod.mk.injEq] at h
      obtain ⟨rfl, rfl, rfl⟩ := h
      have c1 : ConvertAllOk V W t args s s1 rs1 := convertAll_ok t args _ s s1 rs1 hs h1
      obtain ⟨st1, hf1, _, hval1⟩ := c1
      have c2 : ConvertAllOk V W t _ s1 s2 ks2 := convertAll_ok t _ _ s1 s2 ks2 st1.ok h2
      obtain ⟨st2, hf2, _, hval2⟩ := c2
      refine ⟨st1.trans st2, fun r hr => fine_ext st2.ext (hf1 r hr), zip_fine hf2 _, fun sem w c P b env vs kvs hb ha hl hv => ?_⟩
      obtain ⟨e1, kv, e2, rfl⟩ := evalArgs_some hv
      obtain ⟨l1, v1⟩ := hval1 sem w c P b env vs hb ha hl e1
      obtain ⟨l2, v2⟩ := hval2 sem w c P b env kv hb (agrees_step st1 ha) l1 e2
      exact ⟨l2, vals_ext st2.ext v1, zip_vals v2 _⟩

/-- A node for an operation. -/
theorem addOp_ok {t : Callables} {fxName name : String} {target : ℕ} {m : Bool} {args : List Arg} {kwargs : List (String × Arg)} {s s' : Builder} {r : Ref}
    (hs : Ok s) (h : addOp t fxName name target m args kwargs s = .ok (s', r)) :
    Step s s' ∧ Fine s'.graph r ∧ ∀ (sem : Sem V W) (w : W) (c : Ctx) (P : Lang V) (b : String → V) env vs kvs v, Behaves t sem w c P →
      Agrees sem w c b env s → Live sem w c b s.graph → evalArgs P env args kwargs = some (vs, kvs) → sem.call w c target vs kvs = some v →
      Live sem w c b s'.graph ∧ Val sem s'.graph w c b r v := by
  unfold addOp at h
  split at h
  · simp at h
  · rename_i s1 rs ks h1
    obtain ⟨st, hf, hk, hval⟩ := convertArgs_ok (V := V) (W := W) hs h1
    obtain ⟨st', hf', _, hval'⟩ := add_ok (V := V) (W := W) st.ok hf hk h
    refine ⟨st.trans st', hf', fun sem w c P b env vs kvs v hb ha hl he hc => ?_⟩
    obtain ⟨l1, v1, v2⟩ := hval sem w c P b env vs kvs hb ha hl he
    exact hval' sem w c b vs kvs v v1 v2 hc l1

/-! ### Nodes -/

theorem bind_fine {s s1 : Builder} {r : Ref} (st : Step s s1) (hf : Fine s1.graph r) (id : ℕ) : Ok (Builder.bind id (s1, r)) := by
  refine ⟨st.ok.graph, fun i q hq => ?_⟩
  simp only [Builder.bind] at hq ⊢
  by_cases hi : i = id
  · subst hi
    rw [Dict.get_set_self, Option.some.injEq] at hq
    exact hq ▸ hf
  · rw [Dict.get_set_ne _ _ (Ne.symm hi)] at hq
    exact st.ok.refs i q hq

theorem bind_agrees {sem : Sem V W} {w : W} {c : Ctx} {b : String → V} {env : ℕ → Option V} {s s1 : Builder} {r : Ref} {v : V} (st : Step s s1)
    (ha : Agrees sem w c b env s) (hv : Val sem s1.graph w c b r v) (id : ℕ) : Agrees sem w c b (update env id v) (Builder.bind id (s1, r)) := by
  intro i u hu
  simp only [update] at hu
  simp only [Builder.bind]
  by_cases hi : i = id
  · subst hi
    rw [if_pos rfl, Option.some.injEq] at hu
    exact ⟨r, Dict.get_set_self .., hu ▸ hv⟩
  · rw [if_neg hi] at hu
    rw [Dict.get_set_ne _ _ (Ne.symm hi)]
    exact agrees_step st ha i u hu

/-- What the builder has after some nodes. -/
structure Built (rename : String → String) (ns : List Fx) (s s' : Builder) : Prop where
  ok : Ok s'
  next : s.next ≤ s'.next
  ext : Ext s.graph s'.graph
  outputs : s'.graph.outputs = s.graph.outputs
  inputs : s'.graph.inputs = s.graph.inputs ++ (placeholders ns).map rename

/-- Its values are those of the nodes. -/
def Follows (V W : Type) (t : Callables) (onOriginal : String → Bool) (rename : String → String) (pre : String) (ns : List Fx) (s s' : Builder) : Prop :=
  ∀ (sem : Sem V W) (w : W) (c : Ctx) (P : Lang V) (b : String → V) inputs env env', Behaves t sem w c P → Faithful t sem w c P onOriginal pre ns →
    (∀ x v, inputs x = some v → v = b (rename x)) → Agrees sem w c b env s → Live sem w c b s.graph → evalNodes P onOriginal pre inputs ns env = some env' →
    Agrees sem w c b env' s' ∧ Live sem w c b s'.graph

theorem calls_mono {pre : String} {l l' : List Fx} (hl : ∀ n ∈ l, n ∈ l') {path : String} {required : Option ℕ} {body : List Fx} {out : Arg} {provided : ℕ}
    (h : Calls pre l path required body out provided) : Calls pre l' path required body out provided := by
  cases h with
  | here h => exact .here (hl _ h)
  | inside h h' => exact .inside (hl _ h) h'

theorem regular_mono {pre : String} {l l' : List Fx} (hl : ∀ n ∈ l, n ∈ l') (h : Regular pre l') : Regular pre l :=
  fun _ _ _ _ _ hc => h _ _ _ _ _ (calls_mono hl hc)

theorem faithful_mono {t : Callables} {sem : Sem V W} {w : W} {c : Ctx} {P : Lang V} {onOriginal : String → Bool} {pre : String} {l l' : List Fx}
    (hl : ∀ n ∈ l, n ∈ l') (h : Faithful t sem w c P onOriginal pre l') : Faithful t sem w c P onOriginal pre l :=
  fun _ _ _ _ _ hc => h _ _ _ _ _ (calls_mono hl hc)

theorem leafBody_iff {body : List Fx} : LeafBody body ↔ body.any Fx.isCall = false := by
  rw [List.any_eq_false]
  constructor
  · intro h n hn
    cases n with
    | callModule => exact absurd rfl (h _ hn _ _ _ _ _ _ _ _)
    | _ => simp [Fx.isCall]
  · rintro h n hn id name target required inner out args kwargs rfl
    exact h _ hn rfl

theorem evalNodes_single {P : Lang V} {onOriginal : String → Bool} {pre : String} {inputs : String → Option V} {n : Fx} {env env' : ℕ → Option V}
    (h : evalNodes P onOriginal pre inputs [n] env = some env') : evalNode P onOriginal pre inputs n env = some env' := by
  simp only [evalNodes] at h
  split at h
  · simp at h
  · rename_i e he
    rw [he]
    exact h

theorem canCall_true {required : Option ℕ} {provided : ℕ} {out : Arg} (h : canCallOriginal required provided out = true) :
    (∃ n ≤ provided, required = some n) ∧ out.parts.length ≤ 1 := by
  unfold canCallOriginal at h
  split at h
  · simp at h
  · rename_i n
    split_ifs at h with hn
    refine ⟨⟨n, by omega, rfl⟩, ?_⟩
    split at h
    · simpa [Arg.parts] using h
    · simpa [Arg.parts] using h
    · rename_i a h1 h2
      cases a <;> simp_all [Arg.parts]

theorem partFree_of {names : List String} (h : ∀ x ∈ names, '[' ∉ x.toList) : PartFree names := by
  rintro x hx y hy s rfl
  exact h _ hx (by simp [String.toList_append])

theorem get_forall2 {α β : Type} {R : α → β → Prop} {l : List (String × α)} {m : List (String × β)} (h : List.Forall₂ (fun p q => p.1 = q.1 ∧ R p.2 q.2) l m)
    {x : String} {a : α} (hx : Dict.get l x = some a) : ∃ b, Dict.get m x = some b ∧ R a b := by
  induction h with
  | nil => simp [Dict.get] at hx
  | @cons p q l m hpq _ ih =>
    obtain ⟨k, a'⟩ := p
    obtain ⟨k', b'⟩ := q
    obtain ⟨rfl : k = k', hr⟩ := hpq
    simp only [Dict.get] at hx ⊢
    split_ifs at hx ⊢ with hk
    · exact ⟨b', rfl, by simpa using (Option.some.inj hx) ▸ hr⟩
    · exact ih hx

theorem flatRefs_fine {s : Builder} (hs : Ok s) {l : List Arg} {rs : List Ref} (h : flatRefs s.refs l = .ok rs) : ∀ r ∈ rs, Fine s.graph r := by
  induction l generalizing rs with
  | nil =>
    simp only [flatRefs, Except.ok.injEq] at h
    simp [← h]
  | cons a l ih =>
    cases a with
    | node i =>
      simp only [flatRefs] at h
      split at h
      · simp at h
      · rename_i r hr
        cases hl : flatRefs s.refs l with
        | error e => simp [hl, Except.map] at h
        | ok rs' =>
          obtain rfl : r :: rs' = rs := by simpa [hl, Except.map] using h
          intro q hq
          rcases List.mem_cons.1 hq with rfl | hq
          · exact hs.refs i _ hr
          · exact ih hl q hq
    | _ => exact ih h

theorem flatRefs_vals {sem : Sem V W} {w : W} {c : Ctx} {b : String → V} {P : Lang V} {env : ℕ → Option V} {s : Builder} (ha : Agrees sem w c b env s)
    {is : List ℕ} {rs : List Ref} (h : flatRefs s.refs (is.map .node) = .ok rs) {vs : List V} (hv : evalAll P env (is.map .node) = some vs) :
    List.Forall₂ (Val sem s.graph w c b) rs vs := by
  induction is generalizing rs vs with
  | nil =>
    simp only [List.map_nil, flatRefs, Except.ok.injEq] at h
    simp only [List.map_nil, evalAll, Option.some.injEq] at hv
    subst h hv
    exact .nil
  | cons i is ih =>
    simp only [List.map_cons, flatRefs] at h
    obtain ⟨v, vs', e1, e2, rfl⟩ := evalAll_cons hv
    obtain ⟨r, hr, hval⟩ := ha i v e1
    rw [hr] at h
    cases hl : flatRefs s.refs (is.map Arg.node) with
    | error e => simp [hl, Except.map] at h
    | ok rs' =>
      obtain rfl : r :: rs' = rs := by simpa [hl, Except.map] using h
      exact .cons hval (ih hl e2)

theorem graphOk_outputs {g : Graph} {k : ℕ} (h : GraphOk g k) {rs : List Ref} (hr : ∀ r ∈ rs, Fine g r) : GraphOk { g with outputs := rs } k :=
  ⟨⟨h.closed.ids, h.closed.names, h.closed.args, fun r h' => (hr r h').2.1, h.closed.bindings, h.closed.folds⟩, h.plain, h.fresh, h.simple, h.ordered⟩

theorem ext_outputs (g : Graph) (rs : List Ref) : Ext g { g with outputs := rs } := ⟨fun _ h => h, fun _ _ h => h, fun _ _ h => h⟩

theorem ext_inputs (g : Graph) (x : String) : Ext g { g with inputs := g.inputs ++ [x] } := ⟨fun _ h => by simp [h], fun _ _ h => h, fun _ _ h => h⟩

theorem live_same {sem : Sem V W} {w : W} {c : Ctx} {b : String → V} {g g' : Graph} (h : Ext g g') (hn : g'.nodes = g.nodes) (hf : g'.folds = g.folds)
    (hl : Live sem w c b g) : Live sem w c b g' := by
  intro n hn' hf'
  rw [hn] at hn'
  rw [hf] at hf'
  obtain ⟨v, hv⟩ := hl n hn' hf'
  exact ⟨v, val_ext h hv⟩

theorem graphOk_inputs {g : Graph} {k : ℕ} (h : GraphOk g k) {x : String} (hx : x ∉ g.inputs) : GraphOk { g with inputs := g.inputs ++ [x] } k := by
  have he := ext_inputs g x
  refine ⟨⟨h.closed.ids, ?_, fun n hn r hr => closed_ext he (h.closed.args n hn r hr), fun r hr => closed_ext he (h.closed.outputs r hr),
    fun p hp r hr => closed_ext he (h.closed.bindings p hp r hr), h.closed.folds⟩, h.plain, h.fresh, h.simple, h.ordered⟩
  exact List.nodup_append'.2 ⟨h.closed.names, by simp, by simpa using hx⟩

theorem empty_ok (k : ℕ) : Ok { next := k } := by
  refine ⟨⟨⟨?_, ?_, ?_, ?_, ?_, ?_⟩, ?_, ?_, ?_, ?_⟩, ?_⟩ <;> simp [Graph.Plain, Ordered, Dict.get, Graph.UniqueIds]

theorem map_ok {α β ε : Type} {f : α → β} {x : Except ε α} {y : β} (h : x.map f = .ok y) : ∃ a, x = .ok a ∧ y = f a := by
  cases x with
  | error e => simp [Except.map] at h
  | ok a => exact ⟨a, rfl, by simpa [Except.map] using h.symm⟩

/-- The inlined graph and the reference to its result. -/
theorem inlineCall_ok {t : Callables} {path name target : String} {sub : Graph} {args : List Arg} {kwargs : List (String × Arg)} {s s' : Builder} {r : Ref}
    (hs : Ok s) (hsub : GraphOk sub s.next) (hout : ∀ r ∈ sub.outputs, Fine sub r) (hp : PartFree sub.inputs)
    (h : inlineCall t path name target sub args kwargs s = .ok (s', r)) :
    Step s s' ∧ Fine s'.graph r ∧ ∀ (sem : Sem V W) (w : W) (c : Ctx) (P : Lang V) (b b' : String → V) env vs kvs outvals, Behaves t sem w c P →
      Agrees sem w c b env s → Live sem w c b s.graph → evalArgs P env args kwargs = some (vs, kvs) →
      (∀ x v, bound sub.inputs vs kvs x = some v → b' x = v) → Live sem w c b' sub → List.Forall₂ (Val sem sub w c b') sub.outputs outvals →
      Live sem w c b s'.graph ∧ (∀ v, outvals = [v] → Val sem s'.graph w c b r v) ∧
      (outvals.length ≠ 1 → Val sem s'.graph w c b r (P.tuple outvals)) := by
  unfold inlineCall at h
  split at h
  · simp at h
  · rename_i s1 rs ks h1
    obtain ⟨st, hf, hk, hval⟩ := convertArgs_ok (V := V) (W := W) hs h1
    split at h
    · simp at h
    · rename_i g outs h2
      have hsub' := graphOk_mono hsub st.next
      obtain ⟨hg, hext, hin, ho, hfo, _, hsem⟩ := inline_ok (V := V) (W := W) st.ok.graph hsub' hout hp hf hk h2
      obtain ⟨hacc, houts, _⟩ := addSubgraph_spec hsub'.closed hp h2
      have hlen : outs.length = sub.outputs.length := by rw [houts, List.length_map]
      have st1 : Step s1 { s1 with graph := g, next := s1.next + 1 } :=
        ⟨⟨hg, fun i q hq => fine_ext hext (st.ok.refs i q hq)⟩, Nat.le_succ _, hext, hin, ho, rfl⟩
      have hb' : ∀ (sem : Sem V W) (w : W) (c : Ctx) (b b' : String → V) vs kvs, List.Forall₂ (Val sem s1.graph w c b) rs vs →
          List.Forall₂ (fun p q => p.1 = q.1 ∧ Val sem s1.graph w c b p.2 q.2) ks kvs → (∀ x v, bound sub.inputs vs kvs x = some v → b' x = v) →
          ∀ x r, Bound sub.inputs rs ks x r → Val sem s1.graph w c b r (b' x) := by
        intro sem w c b b' vs kvs h3 h4 h5 x q hq
        have hget := (get_bound hsub.closed.names hacc).2 hq
        obtain ⟨v, hv1, hv2⟩ := get_forall2 (List.rel_append (zip_vals h3 sub.inputs) h4) hget
        rw [h5 x v hv1]
        exact hv2
      unfold packed at h
      split at h
      · rename_i r1
        simp only [Except.ok.injEq, Prod.mk.injEq] at h
        obtain ⟨rfl, rfl⟩ := h
        refine ⟨st.trans st1, hfo _ (by simp), fun sem w c P b b' env vs kvs outvals hb ha hl he hbb hls hov => ?_⟩
        obtain ⟨l1, v1, v2⟩ := hval sem w c P b env vs kvs hb ha hl he
        obtain ⟨l2, hv2⟩ := hsem sem w c b b' (hb' sem w c b b' vs kvs v1 v2 hbb) l1 hls
        refine ⟨l2, ?_, fun hne => ?_⟩
        · rintro v rfl
          obtain ⟨q, hq⟩ : ∃ q, sub.outputs = [q] := List.length_eq_one_iff.1 (by rw [← hlen]; rfl)
          rw [hq] at hov hv2
          cases hov with
          | cons hov _ =>
            cases hv2 with
            | cons hv2 _ => exact hv2 v hov
        · exact absurd (by rw [← hov.length_eq, ← hlen]; rfl) hne
      · rename_i hne1
        obtain ⟨st2, hf2, _, hval2⟩ := add_ok (V := V) (W := W) st1.ok hfo (by simp) h
        refine ⟨(st.trans st1).trans st2, hf2, fun sem w c P b b' env vs kvs outvals hb ha hl he hbb hls hov => ?_⟩
        obtain ⟨l1, v1, v2⟩ := hval sem w c P b env vs kvs hb ha hl he
        obtain ⟨l2, hv2⟩ := hsem sem w c b b' (hb' sem w c b b' vs kvs v1 v2 hbb) l1 hls
        have hvals : List.Forall₂ (Val sem g w c b) outs outvals := by
          have : ∀ (l : List Ref) (l' : List Ref) (vals : List V), List.Forall₂ (fun r r' => ∀ v, Val sem sub w c b' r v → Val sem g w c b r' v) l l' →
              List.Forall₂ (Val sem sub w c b') l vals → List.Forall₂ (Val sem g w c b) l' vals := by
            intro l l' vals h1 h2
            induction h1 generalizing vals with
            | nil => cases h2; exact .nil
            | cons h _ ih =>
              cases h2 with
              | cons h2 h3 => exact .cons (h _ h2) (ih _ h3)
          exact this _ _ _ hv2 hov
        obtain ⟨l3, v3⟩ := hval2 sem w c b outvals [] _ hvals .nil (hb.tuple outvals) l2
        refine ⟨l3, ?_, fun _ => v3⟩
        rintro v rfl
        exfalso
        have : outs.length = 1 := by rw [hlen, hov.length_eq]; rfl
        obtain ⟨q, rfl⟩ := List.length_eq_one_iff.1 this
        exact hne1 q rfl

theorem built_bind {rename : String → String} {n : Fx} {s s1 : Builder} {r : Ref} (st : Step s s1) (hf : Fine s1.graph r) (id : ℕ) (hn : placeholders [n] = []) :
    Built rename [n] s (Builder.bind id (s1, r)) :=
  ⟨bind_fine st hf id, st.next, st.ext, st.outputs, by rw [hn]; simpa [Builder.bind] using st.inputs⟩

/-- A builder with outputs. -/
theorem outputs_ok {s s' : Builder} {out : Arg} (hs : Ok s) (ho : s.graph.outputs = []) (h : outputs s out = .ok s') :
    ∃ rs, flatRefs s.refs out.items = .ok rs ∧ s' = { s with graph := { s.graph with outputs := rs } } ∧ ∀ r ∈ rs, Fine s.graph r := by
  unfold outputs at h
  split at h
  · simp at h
  · rename_i rs hrs
    split_ifs at h
    simp only [Except.ok.injEq] at h
    refine ⟨rs, hrs, ?_, flatRefs_fine hs hrs⟩
    rw [← h, ho, List.nil_append]

mutual

theorem buildNode_ok (t : Callables) (onOriginal : String → Bool) : ∀ (n : Fx) (rename : String → String) (pre : String) (s s' : Builder), Ok s →
    Regular pre [n] → buildNode t onOriginal rename pre n s = .ok s' → Built rename [n] s s' ∧ Follows V W t onOriginal rename pre [n] s s'
  | .placeholder id name, rename, pre, s, s', hs, hreg, h => by
    simp only [buildNode] at h
    split_ifs at h with hx
    simp only [Except.ok.injEq] at h
    subst h
    have he := ext_inputs s.graph (rename name)
    have hok : Ok { s with graph := { s.graph with inputs := s.graph.inputs ++ [rename name] }, refs := Dict.set s.refs id (.input (rename name)) } := by
      refine ⟨graphOk_inputs hs.graph hx, fun i r hr => ?_⟩
      simp only at hr ⊢
      by_cases hi : i = id
      · subst hi
        rw [Dict.get_set_self, Option.some.injEq] at hr
        subst hr
        exact ⟨rfl, ⟨nofun, by simp [Ref.unwrap]⟩, nofun⟩
      · rw [Dict.get_set_ne _ _ (Ne.symm hi)] at hr
        exact fine_ext he (hs.refs i r hr)
    refine ⟨⟨hok, le_rfl, he, rfl, rfl⟩, fun sem w c P b inputs env env' _ _ hin ha hl hv => ?_⟩
    replace hv := evalNodes_single hv
    simp only [evalNode, Option.map_eq_some_iff] at hv
    obtain ⟨v, hv, rfl⟩ := hv
    refine ⟨fun i u hu => ?_, live_same he rfl rfl hl⟩
    simp only [update] at hu
    simp only
    by_cases hi : i = id
    · subst hi
      rw [if_pos rfl, Option.some.injEq] at hu
      refine ⟨_, Dict.get_set_self .., ?_⟩
      rw [← hu, hin name v hv]
      exact .input (by simp)
    · rw [if_neg hi] at hu
      rw [Dict.get_set_ne _ _ (Ne.symm hi)]
      obtain ⟨r, h1, h2⟩ := ha i u hu
      exact ⟨r, h1, val_ext he h2⟩
  | .getAttr id name target lifted, rename, pre, s, s', hs, hreg, h => by
    simp only [buildNode] at h
    split at h
    · rename_i k ho
      simp only [Except.ok.injEq] at h
      subst h
      refine ⟨built_bind (.refl hs) (fine_const _ _) id rfl, fun sem w c P b inputs env env' hb _ _ ha hl hv => ?_⟩
      replace hv := evalNodes_single hv
      simp only [evalNode, ho, Bool.false_eq_true, if_false, Option.map_some, Option.some.injEq] at hv
      subst hv
      exact ⟨bind_agrees (.refl hs) ha (const_ok (env := env) hb rfl rfl) id, hl⟩
    · rename_i hno
      obtain ⟨⟨s1, r⟩, h1, rfl⟩ := map_ok h
      obtain ⟨st, hf, _, hval⟩ := add_ok (V := V) (W := W) hs (by simp) (by simp) h1
      refine ⟨built_bind st hf id rfl, fun sem w c P b inputs env env' hb _ _ ha hl hv => ?_⟩
      replace hv := evalNodes_single hv
      simp only [evalNode] at hv
      split_ifs at hv with ho
      · simp only [Option.map_eq_some_iff] at hv
        obtain ⟨v, hv, rfl⟩ := hv
        obtain ⟨l1, v1⟩ := hval sem w c b [] [] v .nil .nil (by rw [hb.getter]; exact hv) hl
        exact ⟨bind_agrees st ha v1 id, l1⟩
      · simp only [Option.map_eq_some_iff] at hv
        obtain ⟨k, hk, _⟩ := hv
        exact absurd (by simpa using ho) (hno k hk)
  | .callModule id name target required body out args kwargs, rename, pre, s, s', hs, hreg, h => by
    simp only [buildNode] at h
    by_cases hcall : body.any Fx.isCall = true
    · rw [if_pos hcall] at h
      split at h
      · simp at h
      · rename_i sub0 h0
        split at h
        · simp at h
        · rename_i sub h1
          obtain ⟨⟨s1, r⟩, h2, rfl⟩ := map_ok h
          have hleaf : ¬ LeafBody body := by rw [leafBody_iff, hcall]; simp
          have hreg' : Regular (absolute pre target) body := fun _ _ _ _ _ hc => hreg _ _ _ _ _ (.inside (List.mem_singleton_self _) hc)
          obtain ⟨hshape, hnames⟩ := hreg _ _ _ _ _ (.here (List.mem_singleton_self _)) hleaf
          have ih := buildNodes_ok t onOriginal body _root_.id (absolute pre target) { next := s.next } sub0 (empty_ok s.next) hreg' h0
          obtain ⟨hb0, hfol⟩ := ih
          obtain ⟨rs, hrs, rfl, hfine⟩ := outputs_ok hb0.ok hb0.outputs h1
          have hsub : GraphOk { sub0.graph with outputs := rs } sub0.next := graphOk_outputs hb0.ok.graph hfine
          have heo := ext_outputs sub0.graph rs
          have hin : sub0.graph.inputs = placeholders body := by simpa using hb0.inputs
          have hs1 : Ok { s with next := sub0.next } := hs.mono hb0.next
          obtain ⟨st, hf, hval⟩ := inlineCall_ok (V := V) (W := W) hs1 hsub (fun r hr => fine_ext heo (hfine r hr))
            (by show PartFree sub0.graph.inputs; rw [hin]; exact partFree_of hnames) h2
          have st' : Step s s1 := ⟨st.ok, hb0.next.trans st.next, st.ext, st.inputs, st.outputs, st.refs⟩
          refine ⟨built_bind st' hf id rfl, fun sem w c P b inputs env env' hb hfa _ ha hl hv => ?_⟩
          replace hv := evalNodes_single hv
          simp only [evalNode] at hv
          split at hv
          · simp at hv
          · rename_i vs kvs hargs
            split at hv
            · simp at hv
            · rename_i inner hinner
              simp only [Option.map_eq_some_iff] at hv
              obtain ⟨v, hv, rfl⟩ := hv
              have hfa' : Faithful t sem w c P onOriginal (absolute pre target) body := fun _ _ _ _ _ hc => hfa _ _ _ _ _ (.inside (List.mem_singleton_self _) hc)
              obtain ⟨ag, lv⟩ := hfol sem w c P (fun x => (bound (placeholders body) vs kvs x).getD (sem.constVal 0)) _ (fun _ => none) inner hb hfa'
                (by intro x v hx; simp [hx]) (by intro i v hi; simp at hi) (by intro n hn; simp at hn) hinner
              have hvals : ∃ outvals, List.Forall₂ (Val sem sub0.graph w c fun x => (bound (placeholders body) vs kvs x).getD (sem.constVal 0)) rs outvals ∧
                  (outvals = [v] ∨ outvals.length ≠ 1 ∧ v = P.tuple outvals) := by
                rcases hshape with ⟨i, rfl⟩ | ⟨is, hlen, rfl⟩
                · refine ⟨[v], flatRefs_vals (P := P) (is := [i]) ag hrs ?_, Or.inl rfl⟩
                  simp only [Arg.eval] at hv
                  simp [evalAll, Arg.eval, hv]
                · simp only [Arg.eval, Option.map_eq_some_iff] at hv
                  obtain ⟨outvals, ho, rfl⟩ := hv
                  refine ⟨outvals, flatRefs_vals (P := P) ag hrs ho, Or.inr ⟨?_, rfl⟩⟩
                  have := evalAll_length ho
                  rw [List.length_map] at this
                  omega
              obtain ⟨outvals, hov, hcase⟩ := hvals
              obtain ⟨l1, one, several⟩ := hval sem w c P b (fun x => (bound (placeholders body) vs kvs x).getD (sem.constVal 0)) env vs kvs outvals hb ha hl hargs
                (by intro x u hx; rw [show ({ sub0.graph with outputs := rs } : Graph).inputs = placeholders body from hin] at hx; simp [hx])
                (live_same heo rfl rfl lv) (vals_ext heo hov)
              refine ⟨bind_agrees st' ha ?_ id, l1⟩
              rcases hcase with h | ⟨h, rfl⟩
              · exact one v h
              · exact several h
    · rw [if_neg hcall] at h
      obtain ⟨⟨s1, r⟩, h1, rfl⟩ := map_ok h
      obtain ⟨st, hf, hval⟩ := addOp_ok (V := V) (W := W) hs h1
      refine ⟨built_bind st hf id rfl, fun sem w c P b inputs env env' hb hfa _ ha hl hv => ?_⟩
      replace hv := evalNodes_single hv
      simp only [evalNode] at hv
      split at hv
      · simp at hv
      · rename_i vs kvs hargs
        split at hv
        · simp at hv
        · rename_i inner hinner
          simp only [Option.map_eq_some_iff] at hv
          obtain ⟨v, hv, rfl⟩ := hv
          obtain ⟨f1, f2⟩ := hfa _ _ _ _ _ (.here (List.mem_singleton_self _)) (leafBody_iff.2 (by simpa using hcall)) vs kvs v (evalArgs_length hargs)
            (by simp only [bodyValue, hinner]; exact hv)
          obtain ⟨l1, v1⟩ := hval sem w c P b env vs kvs v hb ha hl hargs (by
            split_ifs with hcan
            · exact f2 (canCall_true hcan).1 (canCall_true hcan).2
            · exact f1)
          exact ⟨bind_agrees st ha v1 id, l1⟩
  | .callFunction id name fn args kwargs, rename, pre, s, s', hs, hreg, h => by
    simp only [buildNode] at h
    obtain ⟨⟨s1, r⟩, h1, rfl⟩ := map_ok h
    obtain ⟨st, hf, hval⟩ := addOp_ok (V := V) (W := W) hs h1
    refine ⟨built_bind st hf id rfl, fun sem w c P b inputs env env' hb _ _ ha hl hv => ?_⟩
    replace hv := evalNodes_single hv
    simp only [evalNode] at hv
    split at hv
    · simp at hv
    · rename_i vs kvs hargs
      simp only [Option.map_eq_some_iff] at hv
      obtain ⟨v, hv, rfl⟩ := hv
      obtain ⟨l1, v1⟩ := hval sem w c P b env vs kvs v hb ha hl hargs (by rw [hb.func]; exact hv)
      exact ⟨bind_agrees st ha v1 id, l1⟩
  | .callMethod id name method args kwargs, rename, pre, s, s', hs, hreg, h => by
    simp only [buildNode] at h
    obtain ⟨⟨s1, r⟩, h1, rfl⟩ := map_ok h
    obtain ⟨st, hf, hval⟩ := addOp_ok (V := V) (W := W) hs h1
    refine ⟨built_bind st hf id rfl, fun sem w c P b inputs env env' hb _ _ ha hl hv => ?_⟩
    replace hv := evalNodes_single hv
    simp only [evalNode] at hv
    split at hv
    · simp at hv
    · rename_i vs kvs hargs
      simp only [Option.map_eq_some_iff] at hv
      obtain ⟨v, hv, rfl⟩ := hv
      obtain ⟨l1, v1⟩ := hval sem w c P b env vs kvs v hb ha hl hargs (by rw [hb.method]; exact hv)
      exact ⟨bind_agrees st ha v1 id, l1⟩
  | .skipped _, rename, pre, s, s', hs, hreg, h => by
    simp only [buildNode, Except.ok.injEq] at h
    subst h
    refine ⟨⟨hs, le_rfl, Ext.refl _, rfl, by simp [placeholders]⟩, fun sem w c P b inputs env env' _ _ _ ha hl hv => ?_⟩
    replace hv := evalNodes_single hv
    simp only [evalNode, Option.some.injEq] at hv
    exact hv ▸ ⟨ha, hl⟩

theorem buildNodes_ok (t : Callables) (onOriginal : String → Bool) : ∀ (ns : List Fx) (rename : String → String) (pre : String) (s s' : Builder), Ok s →
    Regular pre ns → buildNodes t onOriginal rename pre ns s = .ok s' → Built rename ns s s' ∧ Follows V W t onOriginal rename pre ns s s'
  | [], rename, pre, s, s', hs, hreg, h => by
    simp only [buildNodes, Except.ok.injEq] at h
    subst h
    refine ⟨⟨hs, le_rfl, Ext.refl _, rfl, by simp [placeholders]⟩, fun sem w c P b inputs env env' _ _ _ ha hl hv => ?_⟩
    simp only [evalNodes, Option.some.injEq] at hv
    exact hv ▸ ⟨ha, hl⟩
  | n :: ns, rename, pre, s, s', hs, hreg, h => by
    simp only [buildNodes] at h
    split at h
    · simp at h
    · rename_i s1 h1
      obtain ⟨b1, f1⟩ := buildNode_ok t onOriginal n rename pre s s1 hs (regular_mono (by simp) hreg) h1
      obtain ⟨b2, f2⟩ := buildNodes_ok t onOriginal ns rename pre s1 s' b1.ok (regular_mono (by simp +contextual) hreg) h
      refine ⟨⟨b2.ok, b1.next.trans b2.next, b1.ext.trans b2.ext, b2.outputs.trans b1.outputs, ?_⟩,
        fun sem w c P b inputs env env' hb hfa hin ha hl hv => ?_⟩
      · rw [b2.inputs, b1.inputs, List.append_assoc, ← List.map_append]
        simp only [placeholders, ← List.filterMap_append]
        rfl
      · simp only [evalNodes] at hv
        split at hv
        · simp at hv
        · rename_i env1 he1
          obtain ⟨a1, l1⟩ := f1 sem w c P b inputs env env1 hb (faithful_mono (by simp) hfa) hin ha hl (by simp [evalNodes, he1])
          exact f2 sem w c P b inputs env1 env' hb (faithful_mono (by simp +contextual) hfa) hin a1 l1 hv

end

end FF.Trace
