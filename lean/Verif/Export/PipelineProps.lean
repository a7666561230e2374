/-
Ordering and running of export stages: properties of Verif.Export.Pipeline.
-/
import Verif.Export.Pipeline

namespace FF.Pipeline

variable {N : Type} [DecidableEq N]

set_option linter.unusedSectionVars false

/-! ## Lemmas -/

/-- Lists in which dependencies come first, without repetition. -/
inductive Topo (deps : Nat → List Nat) : List Nat → Prop
  | nil : Topo deps []
  | snoc {l x} : Topo deps l → x ∉ l → (∀ d ∈ deps x, d ∈ l) → Topo deps (l ++ [x])

theorem Topo.nodup {deps : Nat → List Nat} {l : List Nat} (h : Topo deps l) : l.Nodup := by
  induction h with
  | nil => exact List.nodup_nil
  | snoc _ hx _ ih =>
    rw [List.nodup_append]
    refine ⟨ih, by simp, ?_⟩
    intro a ha b hb hab
    rw [List.mem_singleton] at hb
    subst hb
    subst hab
    exact hx ha

theorem Topo.first {deps : Nat → List Nat} {l : List Nat} (h : Topo deps l) :
    ∀ before s after, l = before ++ s :: after → ∀ d ∈ deps s, d ∈ before := by
  induction h with
  | nil =>
    intro before s after h
    simp at h
  | snoc hl hx hd ih =>
    intro before s after he d hds
    rcases List.eq_nil_or_concat after with rfl | ⟨after', y, rfl⟩
    · have := List.append_inj' he rfl
      obtain ⟨h1, h2⟩ := this
      simp only [List.cons.injEq, and_true] at h2
      subst h1
      subst h2
      exact hd d hds
    · have he' : before ++ s :: (after' ++ [y]) = (before ++ s :: after') ++ [y] := by simp
      rw [List.concat_eq_append, he'] at he
      exact ih before s after' (List.append_inj' he rfl).1 d hds

theorem Topo.closed {deps : Nat → List Nat} {l : List Nat} (h : Topo deps l) {s d : Nat} (hs : s ∈ l)
    (hd : d ∈ deps s) : d ∈ l := by
  obtain ⟨b, a, rfl⟩ := List.append_of_mem hs
  exact List.mem_append_left _ (h.first b s a rfl d hd)

/-- Position in the order decreases along dependencies. -/
theorem Topo.rank {deps : Nat → List Nat} {l : List Nat} (h : Topo deps l) {s d : Nat} (hs : s ∈ l)
    (hd : d ∈ deps s) : l.idxOf d < l.idxOf s := by
  obtain ⟨b, a, he⟩ := List.append_of_mem hs
  have hdb := h.first b s a he d hd
  have hsb : s ∉ b := by
    have hn := h.nodup
    rw [he, List.nodup_append] at hn
    intro hc
    exact hn.2.2 s hc s List.mem_cons_self rfl
  rw [he, List.idxOf_append_of_mem hdb, List.idxOf_append_of_notMem hsb, List.idxOf_cons_self]
  have := List.idxOf_lt_length_iff.2 hdb
  omega

theorem needs_mem {p : Pipe N} {l : List Nat} (h : Topo p.deps l) {s d : Nat} (hs : s ∈ l)
    (hn : Needs p s d) : d ∈ l ∧ l.idxOf d < l.idxOf s := by
  induction hn with
  | single h1 => exact ⟨h.closed hs h1, h.rank hs h1⟩
  | tail _ h1 ih =>
    have := h.rank ih.1 h1
    exact ⟨h.closed ih.1 h1, by omega⟩

/-- What a successful visit of `s` on the path `path` does. -/
structure Visited (deps : Nat → List Nat) (path out : List Nat) (s : Nat → Prop) (out' : List Nat) : Prop where
  topo : Topo deps out'
  added : ∃ new, out' = out ++ new ∧ (∀ x ∈ new, x ∉ path) ∧
    ∀ x ∈ new, ∃ r, s r ∧ Relation.ReflTransGen (fun a b => b ∈ deps a) r x
  covers : ∀ r, s r → r ∈ out'

theorem visitAll_ok {stages : List Nat} {deps : Nat → List Nat} {path : List Nat}
    {visit : List Nat → Nat → Except Err (List Nat)}
    (hv : ∀ out d out', Topo deps out → visit out d = .ok out' → Visited deps path out (· = d) out') :
    ∀ (ds out out' : List Nat), Topo deps out → visitAll stages visit out ds = .ok out' →
    Visited deps path out (· ∈ ds) out' ∧ ∀ d ∈ ds, d ∈ stages
  | [], out, out', ht, h => by
    cases h
    exact ⟨⟨ht, ⟨[], by simp, by simp, by simp⟩, by simp⟩, by simp⟩
  | d :: ds, out, out', ht, h => by
    unfold visitAll at h
    by_cases hd : d ∉ stages
    · rw [if_pos hd] at h
      cases h
    · rw [if_neg hd] at h
      cases hd1 : visit out d with
      | error e =>
        rw [hd1] at h
        cases h
      | ok out1 =>
        rw [hd1] at h
        have h1 := hv out d out1 ht hd1
        obtain ⟨h2, h2s⟩ := visitAll_ok hv ds out1 out' h1.topo h
        obtain ⟨n1, e1, p1, r1⟩ := h1.added
        obtain ⟨n2, e2, p2, r2⟩ := h2.added
        refine ⟨⟨h2.topo, ⟨n1 ++ n2, by rw [e2, e1, List.append_assoc], ?_, ?_⟩, ?_⟩, ?_⟩
        · intro x hx
          rcases List.mem_append.1 hx with hx | hx
          · exact p1 x hx
          · exact p2 x hx
        · intro x hx
          rcases List.mem_append.1 hx with hx | hx
          · obtain ⟨r, hr, hrx⟩ := r1 x hx
            exact ⟨r, by rw [hr]; exact List.mem_cons_self, hrx⟩
          · obtain ⟨r, hr, hrx⟩ := r2 x hx
            exact ⟨r, List.mem_cons_of_mem _ hr, hrx⟩
        · intro r hr
          rcases List.mem_cons.1 hr with rfl | hr
          · rw [e2]
            exact List.mem_append_left _ (h1.covers r rfl)
          · exact h2.covers r hr
        · intro x hx
          rcases List.mem_cons.1 hx with rfl | hx
          · exact Decidable.not_not.1 hd
          · exact h2s x hx

theorem dfs_ok {stages : List Nat} {deps : Nat → List Nat} : ∀ (fuel : Nat) (path out : List Nat) (s : Nat)
    (out' : List Nat), Topo deps out → dfs stages deps fuel path out s = .ok out' →
    Visited deps path out (· = s) out'
  | 0, _, _, _, _, _, h => by cases h
  | fuel + 1, path, out, s, out', ht, h => by
    unfold dfs at h
    by_cases h1 : s ∈ path
    · rw [if_pos h1] at h
      cases h
    · rw [if_neg h1] at h
      by_cases h2 : s ∈ out
      · rw [if_pos h2] at h
        cases h
        exact ⟨ht, ⟨[], by simp, by simp, by simp⟩, fun r hr => hr ▸ h2⟩
      · rw [if_neg h2] at h
        cases hv : visitAll stages (dfs stages deps fuel (s :: path)) out (deps s) with
        | error e =>
          rw [hv] at h
          cases h
        | ok out1 =>
          rw [hv] at h
          cases h
          obtain ⟨v, _⟩ := visitAll_ok (fun o d o' => dfs_ok fuel (s :: path) o d o') (deps s) out out1 ht hv
          obtain ⟨n, e, pn, rn⟩ := v.added
          have hs1 : s ∉ out1 := by
            rw [e, List.mem_append]
            rintro (hc | hc)
            · exact h2 hc
            · exact pn s hc List.mem_cons_self
          refine ⟨.snoc v.topo hs1 v.covers, ⟨n ++ [s], by rw [e, List.append_assoc], ?_, ?_⟩, ?_⟩
          · intro x hx
            rcases List.mem_append.1 hx with hx | hx
            · exact fun hc => pn x hx (List.mem_cons_of_mem _ hc)
            · rw [List.mem_singleton] at hx
              exact hx ▸ h1
          · intro x hx
            refine ⟨s, rfl, ?_⟩
            rcases List.mem_append.1 hx with hx | hx
            · obtain ⟨r, hr, hrx⟩ := rn x hx
              exact .head hr hrx
            · rw [List.mem_singleton] at hx
              exact hx ▸ .refl
          · intro r hr
            rw [hr]
            simp

/-- What a failed visit says. -/
def Blame (stages : List Nat) (deps : Nat → List Nat) : Err → Prop
  | .unknown => ∃ x ∈ stages, ∃ d ∈ deps x, d ∉ stages
  | .circular => ∃ x ∈ stages, Relation.TransGen (fun a b => b ∈ deps a) x x
  | _ => False

theorem visitAll_err {stages : List Nat} {deps : Nat → List Nat} {s : Nat} (hs : s ∈ stages)
    {visit : List Nat → Nat → Except Err (List Nat)}
    (hv : ∀ out d e, d ∈ stages → d ∈ deps s → visit out d = .error e → Blame stages deps e) :
    ∀ (ds out : List Nat) (e : Err), (∀ d ∈ ds, d ∈ deps s) → visitAll stages visit out ds = .error e →
    Blame stages deps e
  | [], out, e, _, h => by cases h
  | d :: ds, out, e, hds, h => by
    unfold visitAll at h
    by_cases hd : d ∉ stages
    · rw [if_pos hd] at h
      cases h
      exact ⟨s, hs, d, hds d List.mem_cons_self, hd⟩
    · rw [if_neg hd] at h
      cases hd1 : visit out d with
      | error e' =>
        rw [hd1] at h
        cases h
        exact hv out d e (Decidable.not_not.1 hd) (hds d List.mem_cons_self) hd1
      | ok out1 =>
        rw [hd1] at h
        exact visitAll_err hs hv ds out1 e (fun x hx => hds x (List.mem_cons_of_mem _ hx)) h

theorem dfs_err {stages : List Nat} {deps : Nat → List Nat} : ∀ (fuel : Nat) (path out : List Nat) (s : Nat)
    (e : Err), s ∈ stages → (∀ x ∈ path, x ∈ stages) → path.Nodup → stages.length < fuel + path.length →
    (∀ x ∈ path, Relation.TransGen (fun a b => b ∈ deps a) x s) →
    dfs stages deps fuel path out s = .error e → Blame stages deps e
  | 0, path, _, s, e, hs, hsub, hnd, hf, _, h => by
    have := (hnd.subperm hsub).length_le
    omega
  | fuel + 1, path, out, s, e, hs, hsub, hnd, hf, hpath, h => by
    unfold dfs at h
    by_cases h1 : s ∈ path
    · rw [if_pos h1] at h
      cases h
      exact ⟨s, hs, hpath s h1⟩
    · rw [if_neg h1] at h
      by_cases h2 : s ∈ out
      · rw [if_pos h2] at h
        cases h
      · rw [if_neg h2] at h
        cases hv : visitAll stages (dfs stages deps fuel (s :: path)) out (deps s) with
        | ok out1 =>
          rw [hv] at h
          cases h
        | error e' =>
          rw [hv] at h
          cases h
          refine visitAll_err hs ?_ (deps s) out e (fun _ h => h) hv
          intro o d e'' hd hds hdfs
          refine dfs_err fuel (s :: path) o d e'' hd ?_ (List.nodup_cons.2 ⟨h1, hnd⟩) (by simp; omega) ?_ hdfs
          · intro x hx
            rcases List.mem_cons.1 hx with rfl | hx
            · exact hs
            · exact hsub x hx
          · intro x hx
            rcases List.mem_cons.1 hx with rfl | hx
            · exact .single hds
            · exact .tail (hpath x hx) hds

theorem buildRoots_ok {stages : List Nat} {deps : Nat → List Nat} : ∀ (roots out out' : List Nat),
    Topo deps out → buildRoots stages deps roots out = .ok out' → Visited deps [] out (· ∈ roots) out'
  | [], out, out', ht, h => by
    cases h
    exact ⟨ht, ⟨[], by simp, by simp, by simp⟩, by simp⟩
  | r :: rs, out, out', ht, h => by
    unfold buildRoots at h
    cases hd : dfs stages deps (stages.length + 1) [] out r with
    | error e =>
      rw [hd] at h
      cases h
    | ok out1 =>
      rw [hd] at h
      have h1 := dfs_ok _ _ _ _ _ ht hd
      have h2 := buildRoots_ok rs out1 out' h1.topo h
      obtain ⟨n1, e1, _, r1⟩ := h1.added
      obtain ⟨n2, e2, _, r2⟩ := h2.added
      refine ⟨h2.topo, ⟨n1 ++ n2, by rw [e2, e1, List.append_assoc], by simp, ?_⟩, ?_⟩
      · intro x hx
        rcases List.mem_append.1 hx with hx | hx
        · obtain ⟨r', hr, hrx⟩ := r1 x hx
          exact ⟨r', by rw [hr]; exact List.mem_cons_self, hrx⟩
        · obtain ⟨r', hr, hrx⟩ := r2 x hx
          exact ⟨r', List.mem_cons_of_mem _ hr, hrx⟩
      · intro x hx
        rcases List.mem_cons.1 hx with rfl | hx
        · rw [e2]
          exact List.mem_append_left _ (h1.covers x rfl)
        · exact h2.covers x hx

theorem buildRoots_err {stages : List Nat} {deps : Nat → List Nat} : ∀ (roots out : List Nat) (e : Err),
    (∀ r ∈ roots, r ∈ stages) → buildRoots stages deps roots out = .error e → Blame stages deps e
  | [], out, e, _, h => by cases h
  | r :: rs, out, e, hr, h => by
    unfold buildRoots at h
    cases hd : dfs stages deps (stages.length + 1) [] out r with
    | error e' =>
      rw [hd] at h
      cases h
      exact dfs_err _ _ _ _ _ (hr r List.mem_cons_self) (by simp) List.nodup_nil (by simp) (by simp) hd
    | ok out1 =>
      rw [hd] at h
      exact buildRoots_err rs out1 e (fun x hx => hr x (List.mem_cons_of_mem _ hx)) h

/-- In a successful visit every dependency of an added stage is registered. -/
theorem visitAll_known {stages : List Nat} {deps : Nat → List Nat}
    {visit : List Nat → Nat → Except Err (List Nat)}
    (hv : ∀ out d out', visit out d = .ok out' → ∀ x ∈ out', x ∈ out ∨ ∀ e ∈ deps x, e ∈ stages) :
    ∀ (ds out out' : List Nat), visitAll stages visit out ds = .ok out' →
    (∀ x ∈ out', x ∈ out ∨ ∀ e ∈ deps x, e ∈ stages) ∧ ∀ d ∈ ds, d ∈ stages
  | [], out, out', h => by
    cases h
    exact ⟨fun x hx => Or.inl hx, by simp⟩
  | d :: ds, out, out', h => by
    unfold visitAll at h
    by_cases hd : d ∉ stages
    · rw [if_pos hd] at h
      cases h
    · rw [if_neg hd] at h
      cases hd1 : visit out d with
      | error e =>
        rw [hd1] at h
        cases h
      | ok out1 =>
        rw [hd1] at h
        obtain ⟨i1, i2⟩ := visitAll_known hv ds out1 out' h
        refine ⟨?_, ?_⟩
        · intro x hx
          rcases i1 x hx with hx | hx
          · exact hv out d out1 hd1 x hx
          · exact Or.inr hx
        · intro x hx
          rcases List.mem_cons.1 hx with rfl | hx
          · exact Decidable.not_not.1 hd
          · exact i2 x hx

theorem dfs_known {stages : List Nat} {deps : Nat → List Nat} : ∀ (fuel : Nat) (path out : List Nat) (s : Nat)
    (out' : List Nat), dfs stages deps fuel path out s = .ok out' →
    ∀ x ∈ out', x ∈ out ∨ ∀ e ∈ deps x, e ∈ stages
  | 0, _, _, _, _, h => by cases h
  | fuel + 1, path, out, s, out', h => by
    unfold dfs at h
    by_cases h1 : s ∈ path
    · rw [if_pos h1] at h
      cases h
    · rw [if_neg h1] at h
      by_cases h2 : s ∈ out
      · rw [if_pos h2] at h
        cases h
        exact fun x hx => Or.inl hx
      · rw [if_neg h2] at h
        cases hv : visitAll stages (dfs stages deps fuel (s :: path)) out (deps s) with
        | error e =>
          rw [hv] at h
          cases h
        | ok out1 =>
          rw [hv] at h
          cases h
          obtain ⟨i1, i2⟩ := visitAll_known (deps := deps) (visit := dfs stages deps fuel (s :: path))
            (fun o d o' => dfs_known fuel (s :: path) o d o') _ _ _ hv
          intro x hx
          rcases List.mem_append.1 hx with hx | hx
          · exact i1 x hx
          · rw [List.mem_singleton] at hx
            exact Or.inr (hx ▸ i2)

theorem buildRoots_known {stages : List Nat} {deps : Nat → List Nat} : ∀ (roots out out' : List Nat),
    buildRoots stages deps roots out = .ok out' → ∀ x ∈ out', x ∈ out ∨ ∀ e ∈ deps x, e ∈ stages
  | [], out, out', h => by
    cases h
    exact fun x hx => Or.inl hx
  | r :: rs, out, out', h => by
    unfold buildRoots at h
    cases hd : dfs stages deps (stages.length + 1) [] out r with
    | error e =>
      rw [hd] at h
      cases h
    | ok out1 =>
      rw [hd] at h
      intro x hx
      rcases buildRoots_known rs out1 out' h x hx with hx | hx
      · exact dfs_known _ _ _ _ _ hd x hx
      · exact Or.inr hx

theorem build_topo {p : Pipe N} {t : Option Nat} {order : List Nat} (h : build p t = .ok order) :
    Topo p.deps order := by
  unfold build at h
  cases t with
  | none => exact (buildRoots_ok _ _ _ .nil h).topo
  | some t =>
    dsimp only at h
    by_cases ht : t ∉ p.stages
    · rw [if_pos ht] at h
      cases h
    · rw [if_neg ht] at h
      exact (buildRoots_ok _ _ _ .nil h).topo

theorem mapM_some {R : Type} (results : Nat → Option R) : ∀ (ds : List Nat),
    (∀ d ∈ ds, (results d).isSome) → ∃ args, ds.mapM results = some args ∧ args.map some = ds.map results
  | [], _ => ⟨[], rfl, rfl⟩
  | d :: ds, h => by
    obtain ⟨r, hr⟩ := Option.isSome_iff_exists.1 (h d List.mem_cons_self)
    obtain ⟨args, ha, hm⟩ := mapM_some results ds (fun x hx => h x (List.mem_cons_of_mem _ hx))
    refine ⟨r :: args, ?_, by simp [hr, hm]⟩
    simp [List.mapM_cons, hr, ha]

section
variable {R W E : Type}

theorem execute_spec (p : Pipe N) (call : Nat → List R → W → Except E (R × W)) (input : R) :
    ∀ (rest before : List Nat) (results : Nat → Option R) (w : W), Topo p.deps (before ++ rest) →
    (∀ s, (results s).isSome ↔ s ∈ before) →
    (∀ res w', execute p.deps call input rest results w = .ok (res, w') →
      Calls p call input res rest w w' ∧ (∀ s ∈ before, res s = results s) ∧
        ∀ s, (res s).isSome ↔ s ∈ before ++ rest) ∧
    ∀ e, execute p.deps call input rest results w ≠ .error (.inl e)
  | [], before, results, w, _, hr => by
    refine ⟨?_, ?_⟩
    · intro res w' h
      cases h
      exact ⟨.done w, fun _ _ => rfl, by simpa using hr⟩
    · intro e h
      cases h
  | s :: ss, before, results, w, ht, hr => by
    have hdeps := ht.first before s ss rfl
    have hnd := ht.nodup
    rw [List.nodup_append] at hnd
    have hsb : s ∉ before := fun hc => hnd.2.2 s hc s List.mem_cons_self rfl
    have hss : s ∉ ss := (List.nodup_cons.1 hnd.2.1).1
    obtain ⟨args, hargs, h1, h2⟩ : ∃ args, inputs p.deps input results s = some args ∧
        (p.deps s = [] → args = [input]) ∧ (p.deps s ≠ [] → args.map some = (p.deps s).map results) := by
      unfold inputs
      by_cases hd : p.deps s = []
      · rw [if_pos hd]
        exact ⟨[input], rfl, fun _ => rfl, fun h => absurd hd h⟩
      · rw [if_neg hd]
        obtain ⟨args, ha, hm⟩ := mapM_some results (p.deps s) (fun d hd => (hr d).2 (hdeps d hd))
        exact ⟨args, ha, fun h => absurd h hd, fun _ => hm⟩
    unfold execute
    rw [hargs]
    dsimp only
    cases hc : call s args w with
    | error e =>
      dsimp only
      refine ⟨?_, ?_⟩
      · intro res w' h
        cases h
      · intro e' h
        cases h
    | ok rw' =>
      dsimp only
      have ht' : Topo p.deps ((before ++ [s]) ++ ss) := by
        rw [List.append_assoc]
        exact ht
      have hr' : ∀ x, ((upd results s (some rw'.1)) x).isSome ↔ x ∈ before ++ [s] := by
        intro x
        unfold upd
        by_cases hx : x = s
        · simp [hx]
        · simp [hx, hr x]
      obtain ⟨i1, i2⟩ := execute_spec p call input ss (before ++ [s]) _ rw'.2 ht' hr'
      refine ⟨?_, i2⟩
      intro res w' h
      obtain ⟨c1, c2, c3⟩ := i1 res w' h
      refine ⟨?_, ?_, ?_⟩
      · refine .step s ss args rw'.1 w rw'.2 w' h1 ?_ hc ?_ c1
        · intro hd
          rw [h2 hd]
          apply List.map_congr_left
          intro d hdd
          have hdb := hdeps d hdd
          rw [c2 d (List.mem_append_left _ hdb)]
          unfold upd
          rw [if_neg]
          intro hc
          exact hsb (hc ▸ hdb)
        · rw [c2 s (by simp)]
          simp [upd]
      · intro x hx
        rw [c2 x (List.mem_append_left _ hx)]
        unfold upd
        rw [if_neg]
        intro hc
        exact hsb (hc ▸ hx)
      · intro x
        rw [c3 x]
        simp
end

/-! ## Properties -/

/-- **C50.**  If a pipeline is built, its order lists every registered stage exactly once, after all its
dependencies. -/
theorem build_order {p : Pipe N} {order : List Nat} (h : build p none = .ok order) :
    order.Nodup ∧ (∀ s ∈ p.stages, s ∈ order) ∧ (∀ s ∈ order, s ∈ p.stages) ∧
      DependenciesFirst p order := by
  have ht := build_topo h
  have hv := buildRoots_ok _ _ _ .nil h
  refine ⟨ht.nodup, hv.covers, ?_, ht.first⟩
  have hk := buildRoots_known _ _ _ h
  intro s hs
  obtain ⟨new, e, _, hreach⟩ := hv.added
  rw [List.nil_append] at e
  subst e
  obtain ⟨r, hr, hrs⟩ := hreach s hs
  have : ∀ y, Relation.ReflTransGen (fun a b => b ∈ p.deps a) r y → y ∈ order ∧ y ∈ p.stages := by
    intro y hy
    induction hy with
    | refl => exact ⟨hv.covers r hr, hr⟩
    | tail _ hstep ih =>
      rcases hk _ ih.1 with hc | hc
      · cases hc
      · exact ⟨ht.closed ih.1 hstep, hc _ hstep⟩
  exact (this s hrs).2

/-- **C50.**  Building for a target stage lists exactly that stage and what it needs. -/
theorem build_target_order {p : Pipe N} {t : Nat} {order : List Nat} (h : build p (some t) = .ok order) :
    order.Nodup ∧ (∀ s, s ∈ order ↔ s = t ∨ Needs p t s) ∧ DependenciesFirst p order := by
  have ht := build_topo h
  refine ⟨ht.nodup, ?_, ht.first⟩
  unfold build at h
  dsimp only at h
  by_cases hm : t ∉ p.stages
  · rw [if_pos hm] at h
    cases h
  · rw [if_neg hm] at h
    have hv := buildRoots_ok _ _ _ .nil h
    intro s
    constructor
    · intro hs
      obtain ⟨new, e, _, hreach⟩ := hv.added
      rw [List.nil_append] at e
      subst e
      obtain ⟨r, hr, hrs⟩ := hreach s hs
      rw [List.mem_singleton] at hr
      subst hr
      rcases Relation.reflTransGen_iff_eq_or_transGen.1 hrs with h | h
      · exact Or.inl h
      · exact Or.inr h
    · rintro (rfl | hn)
      · exact hv.covers s (by simp)
      · exact (needs_mem ht (hv.covers t (by simp)) hn).1

/-- **C50.**  Building fails exactly if a registered stage depends on an unregistered one, or needs itself. -/
theorem build_fails_iff (p : Pipe N) :
    (∃ e, build p none = .error e) ↔
      (∃ s ∈ p.stages, ∃ d ∈ p.deps s, d ∉ p.stages) ∨ ∃ s ∈ p.stages, Needs p s s := by
  constructor
  · rintro ⟨e, h⟩
    have := buildRoots_err _ _ _ (fun _ h => h) h
    cases e with
    | unknown => exact Or.inl this
    | circular => exact Or.inr this
    | valueError => exact absurd this id
    | keyError => exact absurd this id
    | depth => exact absurd this id
  · intro hbad
    cases h : build p none with
    | error e => exact ⟨e, rfl⟩
    | ok order =>
      exfalso
      obtain ⟨_, hall, hsub, _⟩ := build_order h
      have ht := build_topo h
      rcases hbad with ⟨s, hs, d, hd, hn⟩ | ⟨s, hs, hn⟩
      · exact hn (hsub d (ht.closed (hall s hs) hd))
      · have := (needs_mem ht (hall s hs) hn).2
        omega

/-- **C50.**  A run that succeeds has called the stages one after the other, each exactly once, with the
results of its dependencies in declared order, or with the pipeline input, and returns the results of the
captured stages. -/
theorem run_calls {R W E : Type} (p : Pipe N) (call : Nat → List R → W → Except E (R × W)) (input : R)
    (w w' : W) (out : List (N × Option R)) (h : run p call input w = .ok (out, w')) :
    ∃ order results, order.Nodup ∧ (∀ s, s ∈ order ↔ s ∈ p.stages) ∧
      Calls p call input results order w w' ∧
      (∀ s ∈ p.stages, (results s).isSome) ∧ out = p.captured.map (fun s => (p.name s, results s)) := by
  unfold run at h
  cases hb : build p none with
  | error e =>
    rw [hb] at h
    cases h
  | ok order =>
    rw [hb] at h
    dsimp only at h
    obtain ⟨hnd, h1, h2, _⟩ := build_order hb
    obtain ⟨i1, _⟩ := execute_spec p call input order [] (fun _ => none) w (build_topo hb) (by simp)
    cases hx : execute p.deps call input order (fun _ => none) w with
    | error e =>
      rw [hx] at h
      cases h
    | ok rw' =>
      rw [hx] at h
      cases h
      obtain ⟨c1, _, c3⟩ := i1 rw'.1 rw'.2 hx
      exact ⟨order, rw'.1, hnd, fun s => ⟨h2 s, h1 s⟩, c1, fun s hs => (c3 s).2 (by simpa using h1 s hs), rfl⟩

/-- **C50.**  Once built, running fails only if a stage function fails. -/
theorem run_fails_only_in_stages {R W E : Type} (p : Pipe N) (call : Nat → List R → W → Except E (R × W))
    (input : R) (w : W) (order : List Nat) (hb : build p none = .ok order) (e : Err) :
    run p call input w ≠ .error (.inl e) := by
  intro h
  unfold run at h
  rw [hb] at h
  dsimp only at h
  obtain ⟨_, i2⟩ := execute_spec p call input order [] (fun _ => none) w (build_topo hb) (by simp)
  cases hx : execute p.deps call input order (fun _ => none) w with
  | error e' =>
    rw [hx] at h
    cases h
    exact i2 e hx
  | ok rw' =>
    rw [hx] at h
    cases h

/-! ## Concrete cases -/

/-- A diamond, registered in reverse: 3 needs 1 and 2, these need 0. -/
def diamond : Pipe Nat :=
  ⟨4, [3, 2, 1, 0], fun s => s, fun s => match s with | 3 => [1, 2] | 2 => [0] | 1 => [0] | _ => [], [3, 1]⟩

example : build diamond none = .ok [0, 1, 2, 3] ∧ build diamond (some 2) = .ok [0, 2] := by decide

/-- Stage `s` records its call and adds its number to its arguments; the result of 3 is that of 1 and 2. -/
def sumCall (s : Nat) (args : List Nat) (w : List (Nat × List Nat)) :
    Except Unit (Nat × List (Nat × List Nat)) := .ok (args.sum + s, w ++ [(s, args)])

example : run diamond sumCall 10 [] =
    .ok ([(3, some 26), (1, some 11)], [(0, [10]), (1, [10]), (2, [10]), (3, [11, 12])]) := by
  decide

/-- A cycle and an unregistered dependency. -/
example : build ({ diamond with deps := fun s => match s with | 0 => [3] | 3 => [0] | _ => [] }) none =
      .error .circular ∧
    build ({ diamond with deps := fun s => match s with | 0 => [7] | _ => [] }) none = .error .unknown := by
  decide

end FF.Pipeline
