import Verif.Orch.CallProps
import Verif.Orch.ContextProps
import Verif.Orch.BindProps
import Verif.Orch.LifetimeProps

/-! # Executing a scheduled graph (C20) -/

namespace FF.Orch

variable {V W : Type}

/-! ### Specification -/

/-- `x[i]` or `x["name"]` or `x.name` batch by batch: an index is an item access; a name is an item access, or an attribute access if the
item access fails for some batch. -/
def Access (sem : Sem V W) : Attr → List V → List V → Prop
  | .idx i, d, d' => List.Forall₂ (fun v v' => sem.item v (.idx i) = some v') d d'
  | .key k, d, d' => List.Forall₂ (fun v v' => sem.item v (.key k) = some v') d d' ∨
      (∃ v ∈ d, sem.item v (.key k) = none) ∧ List.Forall₂ (fun v v' => sem.getattr v k = some v') d d'

/-- The value of a reference in context `c`: evaluate the inputs of a node, align them, call the node on every batch. `inp` are the
graph's inputs, `wAt id` is the state of the modules when node `id` is called. -/
inductive Den (sem : Sem V W) (g : Graph) (inp : String → List V) (wAt : ℕ → W) (c : Ctx) : Ref → List V → Prop
  | input {x : String} : x ∈ g.inputs → Den sem g inp wAt c (.input x) (inp x)
  | const {k : ℕ} : Den sem g inp wAt c (.const k) [sem.constVal k]
  | attr {r : Ref} {a : Attr} {d d' : List V} : Den sem g inp wAt c r d → Access sem a d d' → Den sem g inp wAt c (.attr r a) d'
  | node {id : ℕ} {n : Node} {ads : List (List V)} {out : List V} : g.find? id = some n → ads.length = n.allArgs.length →
      (∀ (i : ℕ) (r : Ref) (d : List V), n.allArgs[i]? = some r → ads[i]? = some d → Den sem g inp wAt c r d) →
      CallRel sem (wAt id) c n.target n.args.length (n.kwargs.map (·.1)) ads out → Den sem g inp wAt c (.node id) out

/-- The modules while the nodes are visited in order: only a delegated module node changes them, by one call of its delegate on the
node's argument values in each of the delegate's contexts. -/
inductive RunsTo (sem : Sem V W) (g : Graph) (inp : String → List V) (wAt : ℕ → W) : W → List ℕ → W → Prop
  | nil {w : W} : RunsTo sem g inp wAt w [] w
  | plain {w w' : W} {id : ℕ} {n : Node} {rest : List ℕ} : g.find? id = some n → (n.delegate = none ∨ n.isModule = false) →
      wAt id = w → RunsTo sem g inp wAt w rest w' → RunsTo sem g inp wAt w (id :: rest) w'
  | deleg {w w1 w' : W} {id : ℕ} {n : Node} {d : Delegate} {bundles : List (Bundle V)} {rest : List ℕ} : g.find? id = some n →
      n.delegate = some d → n.isModule = true →
      List.Forall₂ (fun c b => ∃ ads, List.Forall₂ (Den sem g inp wAt c) n.allArgs ads ∧
        BundleRel n.args.length (n.kwargs.map (·.1)) ads b) d.contexts bundles →
      sem.optimize w d.fn n.target bundles = some w1 → wAt id = w1 → RunsTo sem g inp wAt w1 rest w' →
      RunsTo sem g inp wAt w (id :: rest) w'

/-- Output `r` is computed in context `c`. -/
def NeededRef (g : Graph) (c : Ctx) (r : Ref) : Prop := ∃ n, r.unwrap = .node n ∧ Needed g c n

open Classical in
/-- The returned value: for each context in which an output is computed, the values of those outputs batch by batch. -/
def Returns (sem : Sem V W) (g : Graph) (inp : String → List V) (wAt : ℕ → W) (out : Out V) : Prop :=
  (out.map (·.1)).Nodup ∧ (∀ c, c ∈ out.map (·.1) ↔ ∃ r ∈ g.outputs, NeededRef g c r) ∧
  ∀ p ∈ out, ∃ ds, List.Forall₂ (Den sem g inp wAt p.1) (g.outputs.filter fun r => NeededRef g p.1 r) ds ∧ Transposed ds p.2

/-! ### Attributes -/

theorem mapM_some_iff {α β : Type} (f : α → Option β) (l : List α) (r : List β) :
    l.mapM f = some r ↔ List.Forall₂ (fun a b => f a = some b) l r := by
  induction l generalizing r with
  | nil =>
    simp only [List.mapM_nil]
    constructor
    · intro h; cases h; exact .nil
    · intro h; cases h; rfl
  | cons a l ih =>
    simp only [List.mapM_cons, bind, Option.bind]
    constructor
    · intro h
      cases ha : f a with
      | none => rw [ha] at h; simp at h
      | some b =>
        cases hl : l.mapM f with
        | none => rw [ha, hl] at h; simp at h
        | some bs =>
          rw [ha, hl] at h
          simp only [pure, Option.some.injEq] at h
          subst h
          exact .cons ha ((ih bs).1 hl)
    · intro h
      cases h with
      | cons h1 h2 =>
        rw [h1, (ih _).2 h2]
        rfl

theorem mapM_none_iff {α β : Type} (f : α → Option β) (l : List α) : l.mapM f = none ↔ ∃ a ∈ l, f a = none := by
  induction l with
  | nil => simp [pure]
  | cons a l ih =>
    simp only [List.mapM_cons, bind, Option.bind, List.mem_cons, exists_eq_or_imp]
    cases ha : f a with
    | none => simp
    | some b =>
      cases hl : l.mapM f with
      | none => rw [hl] at ih; simpa using ih
      | some bs =>
        rw [hl] at ih
        simpa [pure] using ih

theorem extract_iff {sem : Sem V W} {a : Attr} {d d' : List V} : sem.extract a d = some d' ↔ Access sem a d d' := by
  cases a with
  | idx i => exact mapM_some_iff _ d d'
  | key k =>
    simp only [Sem.extract, Access]
    cases hm : d.mapM fun v => sem.item v (.key k) with
    | some r =>
      rw [← mapM_some_iff, hm]
      constructor
      · intro h; exact .inl h
      · rintro (h | ⟨h, _⟩)
        · exact h
        · rw [(mapM_none_iff _ d).2 h] at hm; simp at hm
    | none =>
      dsimp only
      rw [mapM_some_iff, ← mapM_none_iff, hm]
      constructor
      · intro h; exact .inr ⟨rfl, h⟩
      · rintro (h | ⟨_, h⟩)
        · rw [(mapM_some_iff _ d d').2 h] at hm; simp at hm
        · exact h

/-! ### Dictionaries -/

theorem mem_set {s : Streams V} {c c' : Ctx} {x x' : Cell V} (h : (c', x') ∈ s.set c x) : (c', x') = (c, x) ∨ (c', x') ∈ s := by
  induction s with
  | nil => simp only [Streams.set, List.mem_singleton] at h; exact Or.inl h
  | cons p rest ih =>
    obtain ⟨k, y⟩ := p
    simp only [Streams.set] at h
    by_cases hk : k = c
    · rw [if_pos hk] at h
      rcases List.mem_cons.1 h with h | h
      · exact Or.inl h
      · exact Or.inr (by simp [h])
    · rw [if_neg hk] at h
      rcases List.mem_cons.1 h with h | h
      · exact Or.inr (by simp [h])
      · rcases ih h with h | h
        · exact Or.inl h
        · exact Or.inr (by simp [h])

theorem set_keys (s : Streams V) (c : Ctx) (x : Cell V) :
    (s.set c x).map (·.1) = if c ∈ s.map (·.1) then s.map (·.1) else s.map (·.1) ++ [c] := by
  induction s with
  | nil => simp [Streams.set]
  | cons p rest ih =>
    obtain ⟨k, y⟩ := p
    simp only [Streams.set]
    by_cases hk : k = c
    · simp [hk]
    · rw [if_neg hk, List.map_cons, ih]
      have hk' : ¬ c = k := fun h => hk h.symm
      by_cases hc : c ∈ rest.map (·.1)
      · rw [if_pos hc, if_pos (by rw [List.map_cons, List.mem_cons]; exact Or.inr hc)]; rfl
      · rw [if_neg hc, if_neg (by rw [List.map_cons, List.mem_cons]; rintro (h | h); exacts [hk' h, hc h])]; rfl

theorem set_nodup {s : Streams V} (h : (s.map (·.1)).Nodup) (c : Ctx) (x : Cell V) : ((s.set c x).map (·.1)).Nodup := by
  rw [set_keys]
  split_ifs with hc
  · exact h
  · rw [List.nodup_append]
    refine ⟨h, by simp, ?_⟩
    intro a ha b hb
    rw [List.mem_singleton] at hb
    rintro rfl
    subst hb
    exact hc ha

theorem set_cover {s : Streams V} {c c' : Ctx} {x : Cell V} : c' ∈ (s.set c x).map (·.1) ↔ c' = c ∨ c' ∈ s.map (·.1) := by
  rw [set_keys]
  split_ifs with hc
  · constructor
    · exact Or.inr
    · rintro (rfl | h)
      · exact hc
      · exact h
  · rw [List.mem_append, List.mem_singleton]; tauto

/-- A dictionary updated with several entries. -/
def Streams.setAll (s m : Streams V) : Streams V := m.foldl (fun s p => s.set p.1 p.2) s

theorem mem_setAll {s m : Streams V} {c : Ctx} {x : Cell V} (h : (c, x) ∈ s.setAll m) : (c, x) ∈ m ∨ (c, x) ∈ s := by
  unfold Streams.setAll at h
  induction m generalizing s with
  | nil => exact Or.inr h
  | cons p rest ih =>
    rw [List.foldl_cons] at h
    rcases ih h with h | h
    · exact Or.inl (by simp [h])
    · rcases mem_set h with h | h
      · exact Or.inl (by rw [h]; simp)
      · exact Or.inr h

theorem setAll_nodup {s : Streams V} (h : (s.map (·.1)).Nodup) (m : Streams V) : ((s.setAll m).map (·.1)).Nodup := by
  unfold Streams.setAll
  induction m generalizing s with
  | nil => exact h
  | cons p rest ih => rw [List.foldl_cons]; exact ih (set_nodup h _ _)

theorem setAll_cover {s m : Streams V} {c : Ctx} : c ∈ (s.setAll m).map (·.1) ↔ c ∈ m.map (·.1) ∨ c ∈ s.map (·.1) := by
  unfold Streams.setAll
  induction m generalizing s with
  | nil => simp
  | cons p rest ih =>
    rw [List.foldl_cons, ih, set_cover, List.map_cons, List.mem_cons]; tauto

theorem foldl_store (t : Ref) (m : Streams V) (reg : Reg V) (r : Ref) :
    m.foldl (fun reg q => reg.store t q.1 q.2) reg r =
      if r = t then (if m = [] then reg t else some (((reg t).getD []).setAll m)) else reg r := by
  induction m generalizing reg with
  | nil => by_cases h : r = t <;> simp [h]
  | cons p rest ih =>
    rw [List.foldl_cons, ih]
    by_cases h : r = t
    · subst h
      simp only [if_true, Reg.store, reduceCtorEq, if_false, Option.getD_some]
      by_cases hr : rest = []
      · subst hr; simp [Streams.setAll]
      · rw [if_neg hr]; rfl
    · simp [h, Reg.store]

theorem lookup_of_mem {s : Streams V} (h : (s.map (·.1)).Nodup) {c : Ctx} {x : Cell V} (hm : (c, x) ∈ s) : s.lookup c = some x := by
  induction s with
  | nil => simp at hm
  | cons p rest ih =>
    obtain ⟨k, y⟩ := p
    rw [List.map_cons, List.nodup_cons] at h
    rw [List.lookup_cons]
    rcases List.mem_cons.1 hm with hm | hm'
    · simp only [Prod.mk.injEq] at hm
      obtain ⟨rfl, rfl⟩ := hm
      simp
    · have hck : c ≠ k := by
        rintro rfl
        exact h.1 (List.mem_map.2 ⟨_, hm', rfl⟩)
      have : (c == k) = false := by simpa using hck
      rw [this]
      exact ih h.2 hm'

theorem mem_of_lookup {s : Streams V} {c : Ctx} {x : Cell V} (h : s.lookup c = some x) : (c, x) ∈ s := by
  induction s with
  | nil => simp at h
  | cons p rest ih =>
    obtain ⟨k, y⟩ := p
    rw [List.lookup_cons] at h
    by_cases hck : c = k
    · subst hck
      simp only [beq_self_eq_true, Option.some.injEq] at h
      rw [h]; simp
    · have : (c == k) = false := by simpa using hck
      rw [this] at h
      exact List.mem_cons_of_mem _ (ih h)

theorem loadAll_ok {sem : Sem V W} {a : Attr} {t : Ref} {str : Streams V} {reg reg' : Reg V} (h : loadAll sem a t str reg = .ok reg') :
    ∃ m : Streams V, List.Forall₂ (fun p q => ∃ d d', p.2 = .data d ∧ sem.extract a d = some d' ∧ q = (p.1, .data d')) str m ∧
      reg' = m.foldl (fun reg q => reg.store t q.1 q.2) reg := by
  induction str generalizing reg with
  | nil => simp only [loadAll, Except.ok.injEq] at h; exact ⟨[], .nil, h.symm⟩
  | cons p rest ih =>
    obtain ⟨c, x⟩ := p
    cases x with
    | constObj => simp [loadAll] at h
    | data d =>
      simp only [loadAll] at h
      cases hx : sem.extract a d with
      | none => rw [hx] at h; simp at h
      | some d' =>
        rw [hx] at h
        obtain ⟨m, h1, h2⟩ := ih h
        exact ⟨(c, .data d') :: m, .cons ⟨d, d', rfl, hx, rfl⟩ h1, h2⟩

theorem loadAll_error {sem : Sem V W} {a : Attr} {t : Ref} {str : Streams V} {reg : Reg V} {e : EErr} (h : loadAll sem a t str reg = .error e) :
    e = .lookupError ∨ ∃ c, (c, .constObj) ∈ str := by
  induction str generalizing reg with
  | nil => simp [loadAll] at h
  | cons p rest ih =>
    obtain ⟨c, x⟩ := p
    cases x with
    | constObj => exact Or.inr ⟨c, by simp⟩
    | data d =>
      simp only [loadAll] at h
      cases hx : sem.extract a d with
      | none => rw [hx] at h; left; exact (Except.error.inj h).symm
      | some d' =>
        rw [hx] at h
        rcases ih h with h | ⟨c', h⟩
        · exact Or.inl h
        · exact Or.inr ⟨c', by simp [h]⟩

/-! ### The register invariant -/

/-- Reference `r` has been computed (its base is in `P`) and is wanted in context `c`. -/
def Avail (g : Graph) (ctxs : ℕ → List Ctx) (PC : List Ctx) (P : List ℕ) (c : Ctx) (r : Ref) : Prop :=
  match r.unwrap with
  | .node id => id ∈ P ∧ c ∈ ctxs id
  | .input x => x ∈ g.inputs ∧ c ∈ PC
  | _ => False

structure RInv (den : Ctx → Ref → List V → Prop) (g : Graph) (ctxs : ℕ → List Ctx) (PC : List Ctx) (P : List ℕ) (reg : Reg V) : Prop where
  keys : ∀ r str, reg r = some str → (str.map (·.1)).Nodup
  sound : ∀ r str c x, reg r = some str → (c, x) ∈ str →
    (∃ k, r = .const k ∧ x = .constObj) ∨ ∃ d, x = .data d ∧ den c r d ∧ Avail g ctxs PC P c r
  node : ∀ id ∈ P, ∃ str, reg (.node id) = some str ∧ ∀ c ∈ ctxs id, c ∈ str.map (·.1)
  input : ∀ x ∈ g.inputs, PC ≠ [] → ∃ str, reg (.input x) = some str ∧ ∀ c ∈ PC, c ∈ str.map (·.1)

/-- Entries and contexts are only added. -/
def Grows (reg reg' : Reg V) : Prop :=
  ∀ r str, reg r = some str → ∃ str', reg' r = some str' ∧ ∀ c ∈ str.map (·.1), c ∈ str'.map (·.1)

theorem Grows.refl (reg : Reg V) : Grows reg reg := fun _ str h => ⟨str, h, fun _ hc => hc⟩

theorem Grows.trans {a b c : Reg V} (h1 : Grows a b) (h2 : Grows b c) : Grows a c := by
  intro r str h
  obtain ⟨s1, h3, h4⟩ := h1 r str h
  obtain ⟨s2, h5, h6⟩ := h2 r s1 h3
  exact ⟨s2, h5, fun c hc => h6 c (h4 c hc)⟩

/-- `r` can be read in every context in which it is wanted. -/
def Ready (g : Graph) (ctxs : ℕ → List Ctx) (PC : List Ctx) (P : List ℕ) (reg : Reg V) (r : Ref) : Prop :=
  ∀ c, Avail g ctxs PC P c r → ∃ str, reg r = some str ∧ c ∈ str.map (·.1)

theorem Ready.grow {g : Graph} {ctxs : ℕ → List Ctx} {PC : List Ctx} {P : List ℕ} {reg reg' : Reg V} {r : Ref}
    (h : Ready g ctxs PC P reg r) (hg : Grows reg reg') : Ready g ctxs PC P reg' r := by
  intro c hc
  obtain ⟨str, h1, h2⟩ := h c hc
  obtain ⟨str', h3, h4⟩ := hg r str h1
  exact ⟨str', h3, h4 c h2⟩

section
variable {den : Ctx → Ref → List V → Prop} {g : Graph} {ctxs : ℕ → List Ctx} {PC : List Ctx} {P : List ℕ}

/-- Adding cells for one reference. -/
theorem RInv.update {reg : Reg V} (h : RInv den g ctxs PC P reg) (t : Ref) (m : Streams V) (reg' : Reg V)
    (ho : ∀ r, r ≠ t → reg' r = reg r) (ht : reg' t = some (((reg t).getD []).setAll m) ∨ (m = [] ∧ reg' t = reg t))
    (hm : ∀ c x, (c, x) ∈ m → (∃ k, t = .const k ∧ x = .constObj) ∨ ∃ d, x = .data d ∧ den c t d ∧ Avail g ctxs PC P c t) :
    RInv den g ctxs PC P reg' ∧ Grows reg reg' ∧ (∀ c ∈ m.map (·.1), ∃ str, reg' t = some str ∧ c ∈ str.map (·.1)) := by
  have hold : ∀ str, reg t = some str → ((reg t).getD []) = str := by intro str hs; rw [hs]; rfl
  have hgetnodup : (((reg t).getD []).map (·.1)).Nodup := by
    cases hs : reg t with
    | none => simp
    | some str => exact h.keys t str hs
  have hgrow : Grows reg reg' := by
    intro r str hs
    by_cases hr : r = t
    · subst hr
      rcases ht with ht | ⟨_, ht⟩
      · refine ⟨_, ht, ?_⟩
        intro c hc
        rw [setAll_cover, hold str hs]
        exact Or.inr hc
      · exact ⟨str, by rw [ht, hs], fun c hc => hc⟩
    · exact ⟨str, by rw [ho r hr, hs], fun c hc => hc⟩
  refine ⟨⟨?_, ?_, ?_, ?_⟩, hgrow, ?_⟩
  · intro r str hs
    by_cases hr : r = t
    · subst hr
      rcases ht with ht | ⟨_, ht⟩
      · rw [ht] at hs
        obtain rfl := Option.some.inj hs
        exact setAll_nodup hgetnodup m
      · rw [ht] at hs; exact h.keys r str hs
    · rw [ho r hr] at hs; exact h.keys r str hs
  · intro r str c x hs hx
    by_cases hr : r = t
    · subst hr
      rcases ht with ht | ⟨_, ht⟩
      · rw [ht] at hs
        obtain rfl := Option.some.inj hs
        rcases mem_setAll hx with hx | hx
        · exact hm c x hx
        · cases hs0 : reg r with
          | none => rw [hs0] at hx; simp at hx
          | some str => rw [hs0] at hx; exact h.sound r str c x hs0 hx
      · rw [ht] at hs; exact h.sound r str c x hs hx
    · rw [ho r hr] at hs; exact h.sound r str c x hs hx
  · intro id hid
    obtain ⟨str, h1, h2⟩ := h.node id hid
    obtain ⟨str', h3, h4⟩ := hgrow _ _ h1
    exact ⟨str', h3, fun c hc => h4 c (h2 c hc)⟩
  · intro x hx hpc
    obtain ⟨str, h1, h2⟩ := h.input x hx hpc
    obtain ⟨str', h3, h4⟩ := hgrow _ _ h1
    exact ⟨str', h3, fun c hc => h4 c (h2 c hc)⟩
  · intro c hc
    rcases ht with ht | ⟨h0, _⟩
    · exact ⟨_, ht, by rw [setAll_cover]; exact Or.inl hc⟩
    · rw [h0] at hc; simp at hc

end

theorem reaches_append_some {sem : Sem V W} {p q : List Instr} {s s' : St V W} (h : reaches sem (p ++ q) s = some s') :
    ∃ s1, reaches sem p s = some s1 ∧ reaches sem q s1 = some s' := by
  rw [reaches_append] at h
  exact Option.bind_eq_some_iff.1 h

theorem reaches_single {sem : Sem V W} {i : Instr} {s s' : St V W} : reaches sem [i] s = some s' ↔ exec sem i s = .ok (s', none) := by
  simp only [reaches]
  constructor
  · intro h
    split at h
    · next h1 => rw [h1, Option.some.inj h]
    · simp at h
  · intro h; rw [h]

section
variable {sem : Sem V W} {g : Graph} {inp : String → List V} {wAt : ℕ → W} {ctxs : ℕ → List Ctx} {PC : List Ctx} {P : List ℕ}

theorem avail_attr {c : Ctx} {r : Ref} {a : Attr} : Avail g ctxs PC P c (.attr r a) ↔ Avail g ctxs PC P c r := by
  unfold Avail; simp only [Ref.unwrap]

theorem scheduleRef_inv (r : Ref) {s s' : St V W} (h : RInv (Den sem g inp wAt) g ctxs PC P s.reg)
    (hr : reaches sem (scheduleRef r) s = some s') :
    s'.w = s.w ∧ RInv (Den sem g inp wAt) g ctxs PC P s'.reg ∧ Grows s.reg s'.reg ∧ Ready g ctxs PC P s'.reg r := by
  induction r generalizing s' with
  | node id =>
    simp only [scheduleRef, reaches, Option.some.injEq] at hr
    subst hr
    refine ⟨rfl, h, Grows.refl _, ?_⟩
    rintro c ⟨h1, h2⟩
    obtain ⟨str, h3, h4⟩ := h.node id h1
    exact ⟨str, h3, h4 c h2⟩
  | input x =>
    simp only [scheduleRef, reaches, Option.some.injEq] at hr
    subst hr
    refine ⟨rfl, h, Grows.refl _, ?_⟩
    rintro c ⟨h1, h2⟩
    obtain ⟨str, h3, h4⟩ := h.input x h1 (List.ne_nil_of_mem h2)
    exact ⟨str, h3, h4 c h2⟩
  | const k =>
    simp only [scheduleRef] at hr
    rw [reaches_single] at hr
    simp only [exec, List.foldl_cons, List.foldl_nil, Except.ok.injEq, Prod.mk.injEq, and_true] at hr
    subst hr
    obtain ⟨h1, h2, _⟩ := h.update (.const k) [(0, .constObj)] (s.reg.store (.const k) 0 .constObj)
      (by intro r hr; simp [Reg.store, hr]) (Or.inl (by simp [Reg.store, Streams.setAll]))
      (by intro c x hx; simp only [List.mem_singleton, Prod.mk.injEq] at hx; exact Or.inl ⟨k, rfl, hx.2⟩)
    refine ⟨rfl, h1, h2, ?_⟩
    intro c hc
    exact hc.elim
  | attr r a ih =>
    simp only [scheduleRef] at hr
    obtain ⟨s1, h1, h2⟩ := reaches_append_some hr
    obtain ⟨hw, hinv, hgrow, hready⟩ := ih h1
    rw [reaches_single] at h2
    simp only [exec] at h2
    cases hsrc : s1.reg r with
    | none => rw [hsrc] at h2; simp at h2
    | some str =>
      rw [hsrc] at h2
      simp only at h2
      cases hl : loadAll sem a (.attr r a) str s1.reg with
      | error e => rw [hl] at h2; simp at h2
      | ok reg' =>
        rw [hl] at h2
        simp only [Except.ok.injEq, Prod.mk.injEq, and_true] at h2
        subst h2
        obtain ⟨m, hm1, hm2⟩ := loadAll_ok hl
        have hkeys : m.map (·.1) = str.map (·.1) := by
          clear hl hm2 hsrc
          induction hm1 with
          | nil => rfl
          | cons h3 _ ih =>
            obtain ⟨d, d', _, _, rfl⟩ := h3
            simp [ih]
        have hmem : ∀ c x, (c, x) ∈ m → ∃ d d', (c, .data d) ∈ str ∧ sem.extract a d = some d' ∧ x = .data d' := by
          clear hl hm2 hsrc hkeys
          intro c x hx
          induction hm1 with
          | nil => simp at hx
          | cons h3 _ ih =>
            obtain ⟨d, d', h4, h5, rfl⟩ := h3
            rcases List.mem_cons.1 hx with hx | hx
            · simp only [Prod.mk.injEq] at hx
              obtain ⟨rfl, rfl⟩ := hx
              exact ⟨d, d', by rw [← h4]; simp, h5, rfl⟩
            · obtain ⟨d2, d2', h6, h7⟩ := ih hx
              exact ⟨d2, d2', by simp [h6], h7⟩
        obtain ⟨h3, h4, h5⟩ := hinv.update (.attr r a) m reg' (by intro r' hr'; rw [hm2, foldl_store, if_neg hr'])
          (by
            rw [hm2, foldl_store, if_pos rfl]
            by_cases hm0 : m = []
            · right; exact ⟨hm0, by rw [if_pos hm0]⟩
            · left; rw [if_neg hm0])
          (by
            intro c x hx
            right
            obtain ⟨d, d', h6, h7, rfl⟩ := hmem c x hx
            rcases hinv.sound r str c _ hsrc h6 with ⟨k, _, hk⟩ | ⟨d2, hd2, hden, hav⟩
            · simp at hk
            · obtain rfl := Cell.data.inj hd2
              exact ⟨d', rfl, .attr hden (extract_iff.1 h7), avail_attr.2 hav⟩)
        refine ⟨hw, h3, hgrow.trans h4, ?_⟩
        intro c hc
        obtain ⟨str', h6, h7⟩ := hready c (avail_attr.1 hc)
        rw [hsrc] at h6
        obtain rfl := Option.some.inj h6
        exact h5 c (by rw [hkeys]; exact h7)

theorem scheduleRefs_inv (rs : List Ref) {s s' : St V W} (h : RInv (Den sem g inp wAt) g ctxs PC P s.reg)
    (hr : reaches sem (rs.flatMap scheduleRef) s = some s') :
    s'.w = s.w ∧ RInv (Den sem g inp wAt) g ctxs PC P s'.reg ∧ Grows s.reg s'.reg ∧ ∀ r ∈ rs, Ready g ctxs PC P s'.reg r := by
  induction rs generalizing s with
  | nil =>
    simp only [List.flatMap_nil, reaches, Option.some.injEq] at hr
    subst hr
    exact ⟨rfl, h, Grows.refl _, by simp⟩
  | cons r rs ih =>
    rw [List.flatMap_cons] at hr
    obtain ⟨s1, h1, h2⟩ := reaches_append_some hr
    obtain ⟨hw, hinv, hg, hrdy⟩ := scheduleRef_inv r h h1
    obtain ⟨hw', hinv', hg', hrdy'⟩ := ih hinv h2
    refine ⟨hw'.trans hw, hinv', hg.trans hg', ?_⟩
    intro r' hr'
    rcases List.mem_cons.1 hr' with rfl | hr'
    · exact hrdy.grow hg'
    · exact hrdy' r' hr'

/-- Reading an argument gives its denotation. -/
theorem getDataset_den {reg : Reg V} (h : RInv (Den sem g inp wAt) g ctxs PC P reg) {c : Ctx} {r : Ref} {d : List V}
    (hd : getDataset sem reg c r = .ok d) : Den sem g inp wAt c r d := by
  have key : ∀ r : Ref, reg.load r c = .ok (.data d) → Den sem g inp wAt c r d := by
    intro r hl
    unfold Reg.load at hl
    cases hs : reg r with
    | none => rw [hs] at hl; simp at hl
    | some str =>
      rw [hs] at hl
      simp only at hl
      cases hk : str.lookup c with
      | none => rw [hk] at hl; simp at hl
      | some x =>
        rw [hk] at hl
        simp only [Except.ok.injEq] at hl
        subst hl
        rcases h.sound r str c _ hs (mem_of_lookup hk) with ⟨k, _, h2⟩ | ⟨d2, h2, h3, _⟩
        · simp at h2
        · rw [Cell.data.inj h2]; exact h3
  cases r with
  | const k => simp only [getDataset, Except.ok.injEq] at hd; rw [← hd]; exact .const
  | node id =>
    simp only [getDataset] at hd
    split at hd
    · simp at hd
    · next d' hl => obtain rfl := Except.ok.inj hd; exact key _ hl
    · simp at hd
  | input x =>
    simp only [getDataset] at hd
    split at hd
    · simp at hd
    · next d' hl => obtain rfl := Except.ok.inj hd; exact key _ hl
    · simp at hd
  | attr r a =>
    simp only [getDataset] at hd
    split at hd
    · simp at hd
    · next d' hl => obtain rfl := Except.ok.inj hd; exact key _ hl
    · simp at hd

theorem callAll_ok {s : St V W} {m : ℕ} {args : List Ref} {kwargs : List (String × Ref)} {cs : List Ctx} {res : Streams V}
    (h : callAll sem s m args kwargs cs = .ok res) :
    res.map (·.1) = cs ∧ ∀ c x, (c, x) ∈ res → ∃ d, x = .data d ∧ callOne sem s m args kwargs c = .ok d := by
  induction cs generalizing res with
  | nil => simp only [callAll, Except.ok.injEq] at h; subst h; simp
  | cons c cs ih =>
    simp only [callAll, bind, Except.bind] at h
    cases h1 : callOne sem s m args kwargs c with
    | error e => rw [h1] at h; simp at h
    | ok d =>
      rw [h1] at h
      simp only at h
      cases h2 : callAll sem s m args kwargs cs with
      | error e => rw [h2] at h; simp at h
      | ok rest =>
        rw [h2] at h
        simp only [Except.ok.injEq] at h
        subst h
        obtain ⟨h3, h4⟩ := ih h2
        refine ⟨by simp [h3], ?_⟩
        intro c' x hx
        rcases List.mem_cons.1 hx with hx | hx
        · simp only [Prod.mk.injEq] at hx
          obtain ⟨rfl, rfl⟩ := hx
          exact ⟨d, rfl, h1⟩
        · exact h4 c' x hx

theorem RInv.mono {reg : Reg V} {id : ℕ} (h : RInv (Den sem g inp wAt) g ctxs PC P reg)
    (hid : ∃ str, reg (.node id) = some str ∧ ∀ c ∈ ctxs id, c ∈ str.map (·.1)) :
    RInv (Den sem g inp wAt) g ctxs PC (id :: P) reg where
  keys := h.keys
  sound := by
    intro r str c x hs hx
    rcases h.sound r str c x hs hx with h1 | ⟨d, h1, h2, h3⟩
    · exact Or.inl h1
    · refine Or.inr ⟨d, h1, h2, ?_⟩
      unfold Avail at h3 ⊢
      cases hu : r.unwrap with
      | node k => rw [hu] at h3; exact ⟨by simp [h3.1], h3.2⟩
      | input y => rw [hu] at h3; exact h3
      | const k => rw [hu] at h3; exact h3
      | attr r' a => rw [hu] at h3; exact h3
  node := by
    intro k hk
    rcases List.mem_cons.1 hk with rfl | hk
    · exact hid
    · exact h.node k hk
  input := h.input

theorem den_node_of_call {s : St V W} {n : Node} {c : Ctx} {d : List V} (h : RInv (Den sem g inp wAt) g ctxs PC P s.reg)
    (hf : g.find? n.id = some n) (hw : wAt n.id = s.w) (hc : callOne sem s n.target n.args n.kwargs c = .ok d) :
    Den sem g inp wAt c (.node n.id) d := by
  obtain ⟨ads, h1, h2⟩ := (callOne_ok_iff _ _ _ _ _ _ _).1 hc
  have hlen := h1.length_eq
  refine .node (ads := ads) hf hlen.symm ?_ (hw ▸ h2)
  intro i r x hr hx
  rw [List.forall₂_iff_get] at h1
  obtain ⟨hi, rfl⟩ := List.getElem?_eq_some_iff.1 hr
  obtain ⟨hi', rfl⟩ := List.getElem?_eq_some_iff.1 hx
  exact getDataset_den h (h1.2 i hi hi')

/-- A node's result becomes available. -/
theorem call_inv {s s' : St V W} {n : Node} (h : RInv (Den sem g inp wAt) g ctxs PC P s.reg) (hf : g.find? n.id = some n)
    (hw : wAt n.id = s'.w)
    (hr : exec sem (.call n.target n.isModule n.args n.kwargs (.node n.id) (ctxs n.id)) s = .ok (s', none)) :
    s'.w = s.w ∧ RInv (Den sem g inp wAt) g ctxs PC (n.id :: P) s'.reg := by
  simp only [exec] at hr
  cases hc : callAll sem s n.target n.args n.kwargs (ctxs n.id) with
  | error e => rw [hc] at hr; simp at hr
  | ok res =>
    rw [hc] at hr
    simp only [Except.ok.injEq, Prod.mk.injEq, and_true] at hr
    subst hr
    refine ⟨rfl, ?_⟩
    obtain ⟨h1, h2⟩ := callAll_ok hc
    have hnew : s.reg.storeAll (.node n.id) res (.node n.id) = some (((s.reg (.node n.id)).getD []).setAll res) := by
      simp [Reg.storeAll, Streams.setAll]
    have hav : ∀ c, c ∈ ctxs n.id → Avail g ctxs PC (n.id :: P) c (.node n.id) := fun c hc => ⟨by simp, hc⟩
    refine ⟨?_, ?_, ?_, ?_⟩
    · intro r str hs
      by_cases hrn : r = .node n.id
      · subst hrn
        obtain rfl := Option.some.inj (hnew.symm.trans hs)
        apply setAll_nodup
        cases hs0 : s.reg (.node n.id) with
        | none => simp
        | some str => exact h.keys _ _ hs0
      · simp only [Reg.storeAll, hrn, if_false] at hs; exact h.keys r str hs
    · intro r str c x hs hx
      have hmono : ∀ r c, Avail g ctxs PC P c r → Avail g ctxs PC (n.id :: P) c r := by
        intro r c h3
        unfold Avail at h3 ⊢
        cases hu : r.unwrap with
        | node k => rw [hu] at h3; exact ⟨by simp [h3.1], h3.2⟩
        | input y => rw [hu] at h3; exact h3
        | const k => rw [hu] at h3; exact h3
        | attr r' a => rw [hu] at h3; exact h3
      have hold : ∀ r str, s.reg r = some str → (c, x) ∈ str → (∃ k, r = .const k ∧ x = .constObj) ∨
          ∃ d, x = .data d ∧ Den sem g inp wAt c r d ∧ Avail g ctxs PC (n.id :: P) c r := by
        intro r str hs hx
        rcases h.sound r str c x hs hx with h3 | ⟨d, h3, h4, h5⟩
        · exact Or.inl h3
        · exact Or.inr ⟨d, h3, h4, hmono _ _ h5⟩
      by_cases hrn : r = .node n.id
      · subst hrn
        obtain rfl := Option.some.inj (hnew.symm.trans hs)
        rcases mem_setAll hx with hx | hx
        · obtain ⟨d, rfl, hd⟩ := h2 c x hx
          right
          refine ⟨d, rfl, den_node_of_call h hf hw hd, hav c ?_⟩
          rw [← h1]; exact List.mem_map.2 ⟨_, hx, rfl⟩
        · cases hs0 : s.reg (.node n.id) with
          | none => rw [hs0] at hx; simp at hx
          | some str => rw [hs0] at hx; exact hold _ str hs0 hx
      · simp only [Reg.storeAll, hrn, if_false] at hs; exact hold r str hs hx
    · intro id hid
      by_cases hidn : id = n.id
      · subst hidn
        refine ⟨_, hnew, ?_⟩
        intro c hc
        rw [setAll_cover, h1]; exact Or.inl hc
      · rcases List.mem_cons.1 hid with hid | hid
        · exact absurd hid hidn
        · obtain ⟨str, h3, h4⟩ := h.node id hid
          refine ⟨str, ?_, h4⟩
          simp only [Reg.storeAll, Ref.node.injEq, hidn, if_false, h3]
    · intro x hx hpc
      obtain ⟨str, h3, h4⟩ := h.input x hx hpc
      refine ⟨str, ?_, h4⟩
      simp only [Reg.storeAll, reduceCtorEq, if_false, h3]

/-- One node of the program. -/
theorem node_inv {s s' : St V W} {n : Node} (h : RInv (Den sem g inp wAt) g ctxs PC P s.reg) (hf : g.find? n.id = some n)
    (hw : wAt n.id = s'.w) (hr : reaches sem (scheduleNode ctxs n) s = some s') :
    RInv (Den sem g inp wAt) g ctxs PC (n.id :: P) s'.reg ∧
    ∀ rest w', RunsTo sem g inp wAt s'.w rest w' → RunsTo sem g inp wAt s.w (n.id :: rest) w' := by
  unfold scheduleNode at hr
  obtain ⟨s3, h1, hcall⟩ := reaches_append_some hr
  obtain ⟨s2, h2, hopt⟩ := reaches_append_some h1
  obtain ⟨s1, hargs, hkw⟩ := reaches_append_some h2
  obtain ⟨hw1, hinv1, _, _⟩ := scheduleRefs_inv n.args h hargs
  obtain ⟨hw2, hinv2, _, _⟩ := scheduleRefs_inv _ hinv1 hkw
  rw [reaches_single] at hcall
  have hopt' : s3.reg = s2.reg ∧ ∀ rest w', RunsTo sem g inp wAt s3.w rest w' → wAt n.id = s3.w →
      RunsTo sem g inp wAt s2.w (n.id :: rest) w' := by
    cases hd : n.delegate with
    | none =>
      rw [hd] at hopt
      simp only [reaches, Option.some.injEq] at hopt
      subst hopt
      exact ⟨rfl, fun rest w' hrt hwa => .plain hf (Or.inl hd) hwa hrt⟩
    | some d =>
      rw [hd] at hopt
      cases him : n.isModule with
      | false =>
        rw [him] at hopt
        simp only [reaches, Option.some.injEq] at hopt
        subst hopt
        exact ⟨rfl, fun rest w' hrt hwa => .plain hf (Or.inr him) hwa hrt⟩
      | true =>
        rw [him] at hopt
        simp only at hopt
        rw [reaches_single] at hopt
        simp only [exec] at hopt
        cases hg : d.contexts.mapM fun c => gather sem s2.reg c n.args n.kwargs with
        | error e => rw [hg] at hopt; simp at hopt
        | ok bundles =>
          rw [hg] at hopt
          simp only at hopt
          cases ho : sem.optimize s2.w d.fn n.target bundles with
          | none => rw [ho] at hopt; simp at hopt
          | some w1 =>
            rw [ho] at hopt
            simp only [Except.ok.injEq, Prod.mk.injEq, and_true] at hopt
            subst hopt
            refine ⟨rfl, fun rest w' hrt hwa => .deleg hf hd him ?_ ho hwa hrt⟩
            refine ((mapM_ok_iff _ _ _).1 hg).imp ?_
            intro c b hb
            obtain ⟨ads, h3, h4⟩ := (gather_ok_iff _ _ _ _ _ _).1 hb
            exact ⟨ads, h3.imp fun r d hd => getDataset_den hinv2 hd, h4⟩
  obtain ⟨hreg, hrt⟩ := hopt'
  have hinv3 : RInv (Den sem g inp wAt) g ctxs PC P s3.reg := by rw [hreg]; exact hinv2
  obtain ⟨hw4, hinv4⟩ := call_inv hinv3 hf hw hcall
  refine ⟨hinv4, ?_⟩
  intro rest w' h5
  have := hrt rest w' (by rw [← hw4]; exact h5) (by rw [hw, hw4])
  rw [hw2, hw1] at this
  exact this

end

/-- The state of the modules after each node of a run. -/
def worldsOf (sem : Sem V W) (ctxs : ℕ → List Ctx) : List Node → St V W → ℕ → W
  | [], s, _ => s.w
  | n :: rest, s, id => match reaches sem (scheduleNode ctxs n) s with
    | none => s.w
    | some s' => if id = n.id then s'.w else worldsOf sem ctxs rest s' id

theorem nodes_inv {sem : Sem V W} {g : Graph} {inp : String → List V} {wAt : ℕ → W} {ctxs : ℕ → List Ctx} {PC : List Ctx}
    (ns : List Node) (hns : ∀ n ∈ ns, g.find? n.id = some n) (hnd : (ns.map (·.id)).Nodup) {P : List ℕ} {s s' : St V W}
    (h : RInv (Den sem g inp wAt) g ctxs PC P s.reg) (hw : ∀ id ∈ ns.map (·.id), wAt id = worldsOf sem ctxs ns s id)
    (hr : reaches sem (ns.flatMap (scheduleNode ctxs)) s = some s') :
    RInv (Den sem g inp wAt) g ctxs PC ((ns.map (·.id)).reverse ++ P) s'.reg ∧ RunsTo sem g inp wAt s.w (ns.map (·.id)) s'.w := by
  induction ns generalizing s P with
  | nil =>
    simp only [List.flatMap_nil, reaches, Option.some.injEq] at hr
    subst hr
    exact ⟨h, .nil⟩
  | cons n ns ih =>
    rw [List.flatMap_cons] at hr
    obtain ⟨s1, h1, h2⟩ := reaches_append_some hr
    have hn := hns n (by simp)
    have hwn : wAt n.id = s1.w := by
      rw [hw n.id (by simp)]; simp [worldsOf, h1]
    obtain ⟨hinv, hstep⟩ := node_inv h hn hwn h1
    rw [List.map_cons, List.nodup_cons] at hnd
    obtain ⟨h3, h4⟩ := ih (fun m hm => hns m (by simp [hm])) hnd.2 hinv (by
      intro id hid
      rw [hw id (by simp only [List.map_cons, List.mem_cons]; exact Or.inr hid)]
      simp only [worldsOf, h1]
      rw [if_neg (by rintro rfl; exact hnd.1 hid)]) h2
    refine ⟨?_, ?_⟩
    · rw [List.map_cons, List.reverse_cons, List.append_assoc]; exact h3
    · rw [List.map_cons]; exact hstep _ _ h4

/-! ### Outputs -/

/-- The streams collected for one context. -/
def collected (acc : List (Ctx × List (List V))) (c : Ctx) : List (List V) := (acc.lookup c).getD []

theorem lookup_map_append (acc : List (Ctx × List (List V))) (c c' : Ctx) (d : List V) :
    (acc.map fun p => if p.1 = c then (p.1, p.2 ++ [d]) else p).lookup c' =
      if c' = c then (acc.lookup c').map (· ++ [d]) else acc.lookup c' := by
  induction acc with
  | nil => simp
  | cons p rest ih =>
    obtain ⟨k, y⟩ := p
    rw [List.map_cons]
    by_cases hk : k = c
    · subst hk
      simp only [if_true, List.lookup_cons]
      by_cases h : c' = k
      · subst h; simp
      · have : (c' == k) = false := by simpa using h
        simp only [this, h, if_false] at ih ⊢
        exact ih
    · simp only [hk, if_false, List.lookup_cons]
      by_cases h : c' = k
      · subst h
        have : ¬ c' = c := hk
        simp [this]
      · have : (c' == k) = false := by simpa using h
        simp only [this]
        exact ih

theorem lookup_append_single (acc : List (Ctx × List (List V))) (c c' : Ctx) (y : List (List V)) (h : acc.lookup c = none) :
    (acc ++ [(c, y)]).lookup c' = if c' = c then some y else acc.lookup c' := by
  induction acc with
  | nil =>
    simp only [List.nil_append, List.lookup_cons, List.lookup_nil]
    by_cases h : c' = c
    · simp [h]
    · have : (c' == c) = false := by simpa using h
      simp [this, h]
  | cons p rest ih =>
    obtain ⟨k, z⟩ := p
    rw [List.lookup_cons] at h
    by_cases hck : c = k
    · subst hck; simp at h
    · have : (c == k) = false := by simpa using hck
      rw [this] at h
      rw [List.cons_append, List.lookup_cons, List.lookup_cons]
      by_cases h2 : c' = k
      · subst h2
        have : ¬ c' = c := fun h => hck h.symm
        simp [this]
      · have : (c' == k) = false := by simpa using h2
        simp only [this]
        exact ih h

theorem any_iff_lookup (acc : List (Ctx × List (List V))) (c : Ctx) : (acc.any (fun p => p.1 == c)) = (acc.lookup c).isSome := by
  induction acc with
  | nil => rfl
  | cons p rest ih =>
    obtain ⟨k, z⟩ := p
    rw [List.any_cons, List.lookup_cons, ih]
    by_cases h : c = k
    · subst h; simp
    · have h1 : (c == k) = false := by simpa using h
      have h2 : (k == c) = false := by simpa using fun h' => h h'.symm
      simp [h1, h2]

/-- One output: its streams are appended, one per context. -/
theorem addOutput_spec (str : Streams V) (hnd : (str.map (·.1)).Nodup) (acc acc' : List (Ctx × List (List V)))
    (hacc : (acc.map (·.1)).Nodup) (h : addOutput acc str = .ok acc') :
    (acc'.map (·.1)).Nodup ∧ ∀ c, acc'.lookup c = match str.lookup c with
      | none => acc.lookup c
      | some (.data d) => some (collected acc c ++ [d])
      | some .constObj => none := by
  induction str generalizing acc with
  | nil => simp only [addOutput, Except.ok.injEq] at h; subst h; exact ⟨hacc, fun c => rfl⟩
  | cons p rest ih =>
    obtain ⟨k, x⟩ := p
    rw [List.map_cons, List.nodup_cons] at hnd
    cases x with
    | constObj => simp [addOutput] at h
    | data d =>
      simp only [addOutput] at h
      have hnone : ∀ c, rest.lookup c = none ∨ c ≠ k := by
        intro c
        by_cases hc : c = k
        · left
          cases hl : rest.lookup c with
          | none => rfl
          | some x => exact absurd (List.mem_map.2 ⟨_, mem_of_lookup hl, rfl⟩) (hc ▸ hnd.1)
        · exact Or.inr hc
      have hstep : ∀ acc1 : List (Ctx × List (List V)), (acc1.map (·.1)).Nodup →
          (∀ c, acc1.lookup c = if c = k then some (collected acc k ++ [d]) else acc.lookup c) →
          addOutput acc1 rest = .ok acc' → (acc'.map (·.1)).Nodup ∧ ∀ c, acc'.lookup c = match ((k, Cell.data d) :: rest).lookup c with
            | none => acc.lookup c
            | some (.data d) => some (collected acc c ++ [d])
            | some .constObj => none := by
        intro acc1 hnd1 hl1 ha
        obtain ⟨h1, h2⟩ := ih hnd.2 acc1 hnd1 ha
        refine ⟨h1, ?_⟩
        intro c
        rw [h2 c, List.lookup_cons]
        by_cases hc : c = k
        · subst hc
          rcases hnone c with h3 | h3
          · rw [h3]; simp [hl1]
          · exact absurd rfl h3
        · have : (c == k) = false := by simpa using hc
          rw [this]
          simp only
          have hcc : collected acc1 c = collected acc c := by unfold collected; rw [hl1 c, if_neg hc]
          rw [hcc, hl1 c, if_neg hc]
      by_cases hany : acc.any (fun p => p.1 == k)
      · rw [if_pos hany] at h
        rw [any_iff_lookup] at hany
        obtain ⟨y, hy⟩ := Option.isSome_iff_exists.1 hany
        refine hstep _ ?_ ?_ h
        · rw [List.map_map]
          have : ((fun x : Ctx × List (List V) => x.1) ∘ fun p => if p.1 = k then (p.1, p.2 ++ [d]) else p) = fun x => x.1 := by
            funext p; simp only [Function.comp]; split_ifs <;> rfl
          rw [this]; exact hacc
        · intro c
          rw [lookup_map_append]
          by_cases hc : c = k
          · subst hc; rw [if_pos rfl, if_pos rfl, hy]; simp [collected, hy]
          · rw [if_neg hc, if_neg hc]
      · rw [if_neg hany] at h
        rw [any_iff_lookup] at hany
        have hy : acc.lookup k = none := Option.not_isSome_iff_eq_none.1 hany
        refine hstep _ ?_ ?_ h
        · rw [List.map_append, List.nodup_append]
          refine ⟨hacc, by simp, ?_⟩
          intro a ha b hb
          simp only [List.map_cons, List.map_nil, List.mem_singleton] at hb
          rintro rfl
          subst hb
          obtain ⟨p, hp, hpk⟩ := List.mem_map.1 ha
          have := any_iff_lookup acc a
          rw [hy] at this
          simp only [Option.isSome_none, List.any_eq_false, beq_iff_eq] at this
          exact this p hp hpk
        · intro c
          rw [lookup_append_single _ _ _ _ hy]
          by_cases hc : c = k
          · subst hc; rw [if_pos rfl, if_pos rfl]; simp [collected, hy]
          · rw [if_neg hc, if_neg hc]

theorem lookup_mem_gen {β : Type} {l : List (Ctx × β)} {c : Ctx} {x : β} (h : l.lookup c = some x) : (c, x) ∈ l := by
  induction l with
  | nil => simp at h
  | cons p rest ih =>
    obtain ⟨k, y⟩ := p
    rw [List.lookup_cons] at h
    by_cases hck : c = k
    · subst hck
      simp only [beq_self_eq_true, Option.some.injEq] at h
      rw [h]; simp
    · have : (c == k) = false := by simpa using hck
      rw [this] at h
      exact List.mem_cons_of_mem _ (ih h)

theorem lookup_of_mem_gen {β : Type} {l : List (Ctx × β)} (h : (l.map (·.1)).Nodup) {c : Ctx} {x : β} (hm : (c, x) ∈ l) :
    l.lookup c = some x := by
  induction l with
  | nil => simp at hm
  | cons p rest ih =>
    obtain ⟨k, y⟩ := p
    rw [List.map_cons, List.nodup_cons] at h
    rw [List.lookup_cons]
    rcases List.mem_cons.1 hm with hm | hm'
    · simp only [Prod.mk.injEq] at hm
      obtain ⟨rfl, rfl⟩ := hm
      simp
    · have hck : c ≠ k := by
        rintro rfl
        exact h.1 (List.mem_map.2 ⟨_, hm', rfl⟩)
      have : (c == k) = false := by simpa using hck
      rw [this]
      exact ih h.2 hm'

open Classical in
/-- Collecting the outputs of a register in which output `r` has the values `den` exactly in the contexts `av`. -/
theorem collectOutputs_spec {reg : Reg V} (den : Ctx → Ref → List V → Prop) (av : Ctx → Ref → Prop) (outs : List Ref)
    (hreg : ∀ r ∈ outs, ∀ str, reg r = some str → (str.map (·.1)).Nodup ∧ ∀ c,
      (∃ d, str.lookup c = some (.data d) ∧ den c r d ∧ av c r) ∨ (str.lookup c = none ∧ ¬ av c r))
    (acc acc' : List (Ctx × List (List V))) (hacc : (acc.map (·.1)).Nodup) (h : collectOutputs reg outs acc = .ok acc') :
    (acc'.map (·.1)).Nodup ∧ ∀ c, ∃ ds, List.Forall₂ (den c) (outs.filter fun r => av c r) ds ∧
      acc'.lookup c = if ds = [] then acc.lookup c else some (collected acc c ++ ds) := by
  induction outs generalizing acc with
  | nil =>
    simp only [collectOutputs, Except.ok.injEq] at h
    subst h
    exact ⟨hacc, fun c => ⟨[], by simp, by simp⟩⟩
  | cons r rs ih =>
    simp only [collectOutputs] at h
    cases hs : reg r with
    | none => rw [hs] at h; simp at h
    | some str =>
      rw [hs] at h
      simp only at h
      obtain ⟨hnd, hstr⟩ := hreg r (by simp) str hs
      cases ha : addOutput acc str with
      | error e => rw [ha] at h; simp at h
      | ok acc1 =>
        rw [ha] at h
        obtain ⟨h1, h2⟩ := addOutput_spec str hnd acc acc1 hacc ha
        obtain ⟨h3, h4⟩ := ih (fun r' hr' => hreg r' (by simp [hr'])) acc1 h1 h
        refine ⟨h3, ?_⟩
        intro c
        obtain ⟨ds, h5, h6⟩ := h4 c
        have h2c := h2 c
        rcases hstr c with ⟨d, hd, hden, hav⟩ | ⟨hd, hav⟩
        · rw [hd] at h2c
          simp only at h2c
          refine ⟨d :: ds, ?_, ?_⟩
          · rw [List.filter_cons_of_pos (by simpa using hav)]; exact .cons hden h5
          · rw [if_neg (by simp), h6]
            by_cases hds : ds = []
            · rw [if_pos hds, h2c, hds]
            · rw [if_neg hds]; simp [collected, h2c]
        · rw [hd] at h2c
          simp only at h2c
          refine ⟨ds, ?_, ?_⟩
          · rw [List.filter_cons_of_neg (by simpa using hav)]; exact h5
          · rw [h6, h2c]; simp only [collected, h2c]

theorem run_eq_reaches (sem : Sem V W) (p q : List Instr) (s : St V W) :
    (∃ s', reaches sem p s = some s' ∧ run sem (p ++ q) s = run sem q s') ∨
    (∃ e s', run sem p s = (s', .error e) ∧ run sem (p ++ q) s = (s', .error e)) ∨
    (∃ o s', run sem p s = (s', .ok (some o)) ∧ run sem (p ++ q) s = (s', .ok (some o))) := by
  induction p generalizing s with
  | nil => exact Or.inl ⟨s, rfl, rfl⟩
  | cons i p ih =>
    simp only [List.cons_append, run, reaches]
    cases he : exec sem i s with
    | error e => right; left; exact ⟨e, s, rfl, rfl⟩
    | ok r =>
      obtain ⟨s', o⟩ := r
      cases o with
      | none => exact ih s'
      | some o => right; right; exact ⟨o, s', rfl, rfl⟩

theorem run_noret (sem : Sem V W) (p : List Instr) (hp : ∀ outs, Instr.ret outs ∉ p) (s s' : St V W) (o : Out V) :
    run sem p s ≠ (s', .ok (some o)) := by
  induction p generalizing s with
  | nil => simp [run]
  | cons i p ih =>
    intro h
    simp only [run] at h
    cases he : exec sem i s with
    | error e => rw [he] at h; simp at h
    | ok r =>
      rw [he] at h
      obtain ⟨s1, o1⟩ := r
      cases o1 with
      | none => exact ih (fun outs ho => hp outs (by simp [ho])) s1 h
      | some o1 =>
        cases i with
        | ret outs => exact hp outs (by simp)
        | store t cs => simp [exec] at he
        | load src t a =>
          simp only [exec] at he
          split at he
          · simp at he
          · split at he <;> simp at he
        | call m im args kwargs t cs =>
          simp only [exec] at he
          split at he <;> simp at he
        | optimize m args kwargs d =>
          simp only [exec] at he
          split at he
          · simp at he
          · split at he <;> simp at he
        | delete ts => simp [exec] at he
        | moveModule dst m => simp [exec] at he
        | moveAct d r =>
          simp only [exec] at he
          split at he
          · simp at he
          · split at he <;> simp at he

theorem scheduleRef_noret (r : Ref) (outs : List Ref) : Instr.ret outs ∉ scheduleRef r := by
  induction r with
  | node id => simp [scheduleRef]
  | input x => simp [scheduleRef]
  | const k => simp [scheduleRef]
  | attr r a ih => simp [scheduleRef, ih]

theorem scheduleNode_noret (ctxs : ℕ → List Ctx) (n : Node) (outs : List Ref) : Instr.ret outs ∉ scheduleNode ctxs n := by
  unfold scheduleNode
  simp only [List.mem_append, List.mem_flatMap, List.mem_singleton, reduceCtorEq, or_false, not_or, not_exists, not_and]
  refine ⟨⟨fun r _ => scheduleRef_noret r outs, fun r _ => scheduleRef_noret r outs⟩, ?_⟩
  split <;> simp

/-- The part of a program before its return instruction. -/
theorem reaches_of_run {sem : Sem V W} {p q : List Instr} (hp : ∀ outs, Instr.ret outs ∉ p) {s s' : St V W} {o : Option (Out V)}
    (h : run sem (p ++ q) s = (s', .ok o)) : ∃ s1, reaches sem p s = some s1 ∧ run sem q s1 = (s', .ok o) := by
  rcases run_eq_reaches sem p q s with ⟨s1, h1, h2⟩ | ⟨e, s1, h1, h2⟩ | ⟨o', s1, h1, h2⟩
  · exact ⟨s1, h1, by rw [← h2]; exact h⟩
  · rw [h2] at h; simp at h
  · exact absurd h1 (run_noret sem p hp s s1 o')

theorem filterMap_find {g : Graph} (hu : g.UniqueIds) (order : List ℕ) (ho : ∀ id ∈ order, id ∈ g.leafIds) :
    (order.filterMap g.find?).map (·.id) = order ∧ ∀ n ∈ order.filterMap g.find?, g.find? n.id = some n := by
  induction order with
  | nil => simp
  | cons id rest ih =>
    obtain ⟨h1, h2⟩ := ih fun x hx => ho x (by simp [hx])
    obtain ⟨n, hn⟩ := Option.isSome_iff_exists.1 (leaf_find hu (ho id (by simp)))
    rw [List.filterMap_cons_some hn]
    have hid := (mem_of_find hn).2
    refine ⟨by rw [List.map_cons, h1, hid], ?_⟩
    intro m hm
    rcases List.mem_cons.1 hm with rfl | hm
    · rw [hid]; exact hn
    · exact h2 m hm

/-- The register the engine starts from. -/
theorem initial_inv {sem : Sem V W} {g : Graph} (hn : g.inputs.Nodup) {inp : String → List V} {wAt : ℕ → W} {ctxs : ℕ → List Ctx}
    {PC : List Ctx} {args : List (RawInput V)} {kwargs : List (String × RawInput V)} (hk : (kwargs.map (·.1)).Nodup)
    (hinp : ∀ x v, Gives g.inputs args kwargs x v → inp x = v.dataset) {reg : Reg V}
    (h : prepareRegister g.inputs args kwargs PC = .ok reg) : RInv (Den sem g inp wAt) g ctxs PC [] reg := by
  unfold prepareRegister at h
  cases hb : bindInputs g.inputs args kwargs with
  | error e => rw [hb] at h; simp at h
  | ok b =>
    rw [hb] at h
    simp only [Except.ok.injEq] at h
    obtain ⟨hperm, hgives⟩ := bind_once g.inputs hn args kwargs b hk hb
    -- one input at a time
    have gen : ∀ (l : List (String × RawInput V)) (reg0 : Reg V), (∀ p ∈ l, p ∈ b) →
        (∀ r str, reg0 r = some str → (str.map (·.1)).Nodup ∧ ∀ c x, (c, x) ∈ str → ∃ n, r = .input n ∧ n ∈ g.inputs ∧ x = .data (inp n) ∧ c ∈ PC) →
        let reg1 := l.foldl (fun reg p => PC.foldl (fun reg c => reg.store (.input p.1) c (.data p.2.dataset)) reg) reg0
        (∀ r str, reg1 r = some str → (str.map (·.1)).Nodup ∧ ∀ c x, (c, x) ∈ str → ∃ n, r = .input n ∧ n ∈ g.inputs ∧ x = .data (inp n) ∧ c ∈ PC) ∧
        Grows reg0 reg1 ∧ (PC ≠ [] → ∀ p ∈ l, ∃ str, reg1 (.input p.1) = some str ∧ ∀ c ∈ PC, c ∈ str.map (·.1)) := by
      intro l
      induction l with
      | nil => intro reg0 _ h0; exact ⟨h0, Grows.refl _, by simp⟩
      | cons p l ih =>
        intro reg0 hl h0
        have hp := hl p (by simp)
        have hpin : p.1 ∈ g.inputs := hperm.mem_iff.1 (List.mem_map.2 ⟨p, hp, rfl⟩)
        have hpval : inp p.1 = p.2.dataset := hinp p.1 p.2 ((hgives p.1 p.2).1 hp)
        have hfold : ∀ (cs : List Ctx), cs.foldl (fun reg c => Reg.store reg (.input p.1) c (.data p.2.dataset)) reg0 =
            (cs.map fun c => (c, Cell.data p.2.dataset)).foldl (fun reg q => reg.store (.input p.1) q.1 q.2) reg0 := by
          intro cs; rw [List.foldl_map]
        have hr1 : ∀ r, PC.foldl (fun reg c => Reg.store reg (.input p.1) c (.data p.2.dataset)) reg0 r =
            if r = .input p.1 then (if PC = [] then reg0 (.input p.1) else
              some (((reg0 (.input p.1)).getD []).setAll (PC.map fun c => (c, Cell.data p.2.dataset)))) else reg0 r := by
          intro r
          rw [hfold, foldl_store]
          simp only [List.map_eq_nil_iff]
        have hnd0 : (((reg0 (.input p.1)).getD []).map (·.1)).Nodup := by
          cases hs : reg0 (.input p.1) with
          | none => simp
          | some str => exact (h0 _ _ hs).1
        have hgrow1 : Grows reg0 (PC.foldl (fun reg c => Reg.store reg (.input p.1) c (.data p.2.dataset)) reg0) := by
          intro r str hs
          rw [hr1]
          by_cases hr : r = .input p.1
          · subst hr
            rw [if_pos rfl]
            by_cases hpc : PC = []
            · rw [if_pos hpc]; exact ⟨str, hs, fun c hc => hc⟩
            · rw [if_neg hpc]
              refine ⟨_, rfl, ?_⟩
              intro c hc
              rw [setAll_cover, hs]; exact Or.inr hc
          · rw [if_neg hr]; exact ⟨str, hs, fun c hc => hc⟩
        obtain ⟨h1, h2, h3⟩ := ih (PC.foldl (fun reg c => Reg.store reg (.input p.1) c (.data p.2.dataset)) reg0)
          (fun q hq => hl q (by simp [hq])) (by
            intro r str hs
            rw [hr1] at hs
            by_cases hr : r = .input p.1
            · subst hr
              rw [if_pos rfl] at hs
              by_cases hpc : PC = []
              · rw [if_pos hpc] at hs; exact h0 _ _ hs
              · rw [if_neg hpc] at hs
                obtain rfl := Option.some.inj hs
                refine ⟨setAll_nodup hnd0 _, ?_⟩
                intro c x hx
                rcases mem_setAll hx with hx | hx
                · obtain ⟨c', hc', he⟩ := List.mem_map.1 hx
                  simp only [Prod.mk.injEq] at he
                  obtain ⟨rfl, rfl⟩ := he
                  exact ⟨p.1, rfl, hpin, by rw [hpval], hc'⟩
                · cases hs0 : reg0 (.input p.1) with
                  | none => rw [hs0] at hx; simp at hx
                  | some str => rw [hs0] at hx; exact (h0 _ _ hs0).2 c x hx
            · rw [if_neg hr] at hs; exact h0 _ _ hs)
        refine ⟨h1, hgrow1.trans h2, ?_⟩
        intro hpc q hq
        rcases List.mem_cons.1 hq with rfl | hq
        · have := hr1 (.input q.1)
          rw [if_pos rfl, if_neg hpc] at this
          obtain ⟨str, h4, h5⟩ := h2 _ _ this
          refine ⟨str, h4, ?_⟩
          intro c hc
          apply h5
          rw [setAll_cover]
          left
          simp only [List.map_map]
          exact List.mem_map.2 ⟨c, hc, rfl⟩
        · exact h3 hpc q hq
    obtain ⟨h1, _, h3⟩ := gen b (fun _ => none) (fun p hp => hp) (by simp)
    rw [h] at h1 h3
    refine ⟨fun r str hs => (h1 r str hs).1, ?_, by simp, ?_⟩
    · intro r str c x hs hx
      obtain ⟨n, rfl, hni, rfl, hc⟩ := (h1 r str hs).2 c x hx
      exact Or.inr ⟨_, rfl, .input hni, hni, hc⟩
    · intro x hx hpc
      obtain ⟨p, hp, rfl⟩ := List.mem_map.1 (hperm.mem_iff.2 hx)
      exact h3 hpc p hp

/-! ### Properties -/

/-- **C20.** Whatever a run of the scheduled graph returns is the denotation of the graph's outputs: there is a history of the modules,
obtained by visiting the nodes once in order, such that each returned row consists of the output values under that history. Nothing is
returned exactly if the graph has no outputs. -/
theorem scheduled_run_denotes (sem : Sem V W) (g : Graph) (hu : g.UniqueIds) (hn : g.inputs.Nodup) (order : List ℕ)
    (hv : ValidOrder g order) (hout : ∀ r ∈ g.outputs, ∃ n ∈ g.leafIds, r.unwrap = .node n)
    (args : List (RawInput V)) (kwargs : List (String × RawInput V)) (hk : (kwargs.map (·.1)).Nodup) (inp : String → List V)
    (hinp : ∀ x v, Gives g.inputs args kwargs x v → inp x = v.dataset) (w w' : W) (res : Option (Out V))
    (h : runGraph sem g order w args kwargs = (w', .ok res)) :
    ∃ wAt, RunsTo sem g inp wAt w order w' ∧ (g.outputs = [] → res = none) ∧
      (g.outputs ≠ [] → ∃ out, res = some out ∧ Returns sem g inp wAt out) := by
  classical
  unfold runGraph at h
  simp only at h
  cases hp : prepareRegister g.inputs args kwargs (programContexts (schedule g order)) with
  | error e => rw [hp] at h; simp at h
  | ok reg =>
    rw [hp] at h
    simp only [Prod.mk.injEq] at h
    obtain ⟨hw', hres⟩ := h
    have hleaf : ∀ id ∈ order, id ∈ g.leafIds := fun id h => hv.1.mem_iff.1 h
    obtain ⟨hids, hfind⟩ := filterMap_find hu order hleaf
    set ctxs := propagateContexts g order with hctxs
    set ns := order.filterMap g.find? with hns
    set PC := programContexts (schedule g order) with hPC
    set wAt := worldsOf sem ctxs ns ⟨w, reg⟩ with hwAt
    have hnoret : ∀ outs, Instr.ret outs ∉ ns.flatMap (scheduleNode ctxs) := by
      intro outs ho
      obtain ⟨n, _, hno⟩ := List.mem_flatMap.1 ho
      exact scheduleNode_noret ctxs n outs hno
    obtain ⟨sf, hrun⟩ : ∃ sf, run sem (schedule g order) ⟨w, reg⟩ = (sf, .ok res) := ⟨_, Prod.ext rfl hres⟩
    have hsf : sf.w = w' := by rw [← hw', hrun]
    unfold schedule at hrun
    simp only at hrun
    obtain ⟨s1, h1, h2⟩ := reaches_of_run hnoret hrun
    have hinv0 : RInv (Den sem g inp wAt) g ctxs PC [] (St.reg ⟨w, reg⟩) := initial_inv hn hk hinp hp
    obtain ⟨hinv, hrt⟩ := nodes_inv ns hfind (by rw [hids]; exact valid_nodup hu hv) hinv0 (fun id _ => rfl) h1
    rw [hids] at hinv hrt
    by_cases ho : g.outputs = []
    · refine ⟨wAt, ?_, ?_, fun h => absurd ho h⟩
      · rw [ho] at h2
        simp only [List.isEmpty_nil, if_true, run, Prod.mk.injEq] at h2
        rw [← hsf, ← h2.1]; exact hrt
      · intro _
        rw [ho] at h2
        simp only [List.isEmpty_nil, if_true, run, Prod.mk.injEq, Except.ok.injEq] at h2
        exact h2.2.symm
    · have hoe : g.outputs.isEmpty = false := by simpa using ho
      rw [hoe] at h2
      simp only [Bool.false_eq_true, if_false] at h2
      have hnoret2 : ∀ outs, Instr.ret outs ∉ g.outputs.flatMap scheduleRef := by
        intro outs h3
        obtain ⟨r, _, hr⟩ := List.mem_flatMap.1 h3
        exact scheduleRef_noret r outs hr
      obtain ⟨s2, h3, h4⟩ := reaches_of_run hnoret2 h2
      obtain ⟨hw2, hinv2, _, hready⟩ := scheduleRefs_inv g.outputs hinv h3
      simp only [run, exec] at h4
      cases hro : returnOutputs s2.reg g.outputs with
      | error e => rw [hro] at h4; simp at h4
      | ok out =>
        rw [hro] at h4
        simp only [Prod.mk.injEq, Except.ok.injEq] at h4
        obtain ⟨hs2, hres'⟩ := h4
        refine ⟨wAt, ?_, fun h => absurd h ho, fun _ => ⟨out, hres'.symm, ?_⟩⟩
        · rw [← hsf, ← hs2, hw2]; exact hrt
        · unfold returnOutputs at hro
          simp only [bind, Except.bind] at hro
          cases hco : collectOutputs s2.reg g.outputs [] with
          | error e => rw [hco] at hro; simp at hro
          | ok per =>
            rw [hco] at hro
            simp only at hro
            have hav : ∀ r ∈ g.outputs, ∀ c, Avail g ctxs PC (order.reverse ++ []) c r ↔ NeededRef g c r := by
              intro r hr c
              obtain ⟨n, hn, hrn⟩ := hout r hr
              unfold Avail NeededRef
              rw [hrn]
              simp only [List.append_nil, List.mem_reverse, Ref.node.injEq]
              rw [hctxs, contexts_exact g hu order hv]
              constructor
              · rintro ⟨_, h⟩; exact ⟨n, rfl, h⟩
              · rintro ⟨n', rfl, h⟩; exact ⟨hv.1.mem_iff.2 hn, h⟩
            obtain ⟨hnd, hper⟩ := collectOutputs_spec (reg := s2.reg) (Den sem g inp wAt) (NeededRef g) g.outputs (by
              intro r hr str hs
              refine ⟨hinv2.keys r str hs, ?_⟩
              intro c
              by_cases hc : NeededRef g c r
              · left
                obtain ⟨str', h5, h6⟩ := hready r hr c ((hav r hr c).2 hc)
                rw [hs] at h5
                obtain rfl := Option.some.inj h5
                obtain ⟨⟨c', x⟩, hx, rfl⟩ := List.mem_map.1 h6
                rcases hinv2.sound r str c' x hs hx with ⟨k, rfl, _⟩ | ⟨d, rfl, hd, _⟩
                · obtain ⟨n, _, hrn⟩ := hout _ hr
                  simp [Ref.unwrap] at hrn
                · exact ⟨d, lookup_of_mem (hinv2.keys r str hs) hx, hd, hc⟩
              · right
                refine ⟨?_, hc⟩
                cases hl : str.lookup c with
                | none => rfl
                | some x =>
                  exfalso
                  rcases hinv2.sound r str c x hs (mem_of_lookup hl) with ⟨k, rfl, _⟩ | ⟨d, _, _, hd⟩
                  · obtain ⟨n, _, hrn⟩ := hout _ hr
                    simp [Ref.unwrap] at hrn
                  · exact hc ((hav r hr c).1 hd)) [] per (by simp) hco
            have hmm := (mapM_ok_iff _ _ _).1 hro
            have hkeys : out.map (·.1) = per.map (·.1) := by
              clear hco hro hper hnd hres' hready hinv2
              induction hmm with
              | nil => rfl
              | cons h5 _ ih =>
                rw [List.map_cons, List.map_cons, ih]
                congr 1
                unfold mergeContext at h5
                cases hm : merge _ with
                | error e => rw [hm] at h5; simp at h5
                | ok rows => rw [hm] at h5; simp only [Except.ok.injEq] at h5; rw [← h5]
            refine ⟨by rw [hkeys]; exact hnd, ?_, ?_⟩
            · intro c
              rw [hkeys]
              obtain ⟨ds, h5, h6⟩ := hper c
              simp only [List.lookup_nil, collected, Option.getD_none, List.nil_append] at h6
              constructor
              · intro hc
                obtain ⟨⟨c', x⟩, hx, rfl⟩ := List.mem_map.1 hc
                have := lookup_of_mem_gen hnd hx
                rw [h6] at this
                by_cases hds : ds = []
                · rw [if_pos hds] at this; simp at this
                · obtain ⟨d, hd⟩ := List.exists_mem_of_ne_nil _ hds
                  have hlen := h5.length_eq
                  have hne : (g.outputs.filter fun r => NeededRef g c' r) ≠ [] := by
                    intro h0; rw [h0] at hlen; exact hds (List.length_eq_zero_iff.1 hlen.symm)
                  obtain ⟨r, hr⟩ := List.exists_mem_of_ne_nil _ hne
                  rw [List.mem_filter] at hr
                  exact ⟨r, hr.1, by simpa using hr.2⟩
              · rintro ⟨r, hr, hcr⟩
                have hne : ds ≠ [] := by
                  rintro rfl
                  have hlen := h5.length_eq
                  have hmem : r ∈ g.outputs.filter fun r => NeededRef g c r := List.mem_filter.2 ⟨hr, by simpa using hcr⟩
                  rw [List.length_eq_zero_iff.1 hlen] at hmem
                  simp at hmem
                rw [if_neg hne] at h6
                exact List.mem_map.2 ⟨_, lookup_mem_gen h6, rfl⟩
            · intro p hp
              obtain ⟨i, hi, rfl⟩ := List.getElem_of_mem hp
              have hi' : i < per.length := by rw [hmm.length_eq]; exact hi
              have h5 := (List.forall₂_iff_get.1 hmm).2 i hi' hi
              simp only [List.get_eq_getElem] at h5
              unfold mergeContext at h5
              cases hm : merge per[i].2 with
              | error e => rw [hm] at h5; simp at h5
              | ok rows =>
                rw [hm] at h5
                simp only [Except.ok.injEq] at h5
                obtain ⟨ds, h6, h7⟩ := hper per[i].1
                have hlk := lookup_of_mem_gen hnd (show (per[i].1, per[i].2) ∈ per from List.getElem_mem hi')
                rw [hlk] at h7
                simp only [List.lookup_nil, collected, Option.getD_none, List.nil_append] at h7
                by_cases hds : ds = []
                · rw [if_pos hds] at h7; simp at h7
                · rw [if_neg hds] at h7
                  rw [Option.some.inj h7] at hm
                  rw [← h5]
                  exact ⟨ds, h6, (((merge_spec ds).1 rows).1 hm).2⟩

end FF.Orch
