import Verif.Autoquant.Preprocess

/-! # Autoquant's preprocessing keeps what a function does (C85) -/

namespace FF.Py

variable {V W E : Type}

/-! ### Lemmas -/

theorem tmp_inj {m n : ℕ} (h : tmp m = tmp n) : m = n := by
  unfold tmp at h
  have h1 := congrArg String.toList h
  simp only [String.toList_append, List.append_cancel_left_eq] at h1
  have h2 : (toString m : String) = toString n := String.toList_inj.1 h1
  rw [Nat.toString_eq_ofList_toDigits, Nat.toString_eq_ofList_toDigits] at h2
  have h3 := String.ofList_inj.1 h2
  have := congrArg (fun l => Nat.ofDigitChars 10 l 0) h3
  simpa [Nat.ofDigitChars_ten_toDigits] using this

/-- Equal but for temporaries from `n` on. -/
def Agree (n : ℕ) (env env' : Env V) : Prop := ∀ x, (∀ i, n ≤ i → x ≠ tmp i) → env x = env' x

theorem Agree.refl (n : ℕ) (env : Env V) : Agree n env env := fun _ _ => rfl

theorem Agree.symm {n : ℕ} {env env' : Env V} (h : Agree n env env') : Agree n env' env := fun x hx => (h x hx).symm

theorem Agree.trans {n : ℕ} {a b c : Env V} (h : Agree n a b) (h' : Agree n b c) : Agree n a c := fun x hx => (h x hx).trans (h' x hx)

theorem Agree.mono {m n : ℕ} {a b : Env V} (h : Agree n a b) (hm : m ≤ n) : Agree m a b := fun x hx => h x fun i hi => hx i (by omega)

theorem Agree.set {n : ℕ} {a b : Env V} (h : Agree n a b) (x : String) (v : V) : Agree n (a.set x v) (b.set x v) := by
  intro y hy
  unfold Env.set
  split
  · rfl
  · exact h y hy

theorem Agree.bind {n : ℕ} : ∀ {a b : Env V} (xs : List String) (vs : List V), Agree n a b → Agree n (a.bind xs vs) (b.bind xs vs)
  | a, b, [], vs, h => by simpa [Env.bind] using h
  | a, b, x :: xs, [], h => by simpa [Env.bind] using h
  | a, b, x :: xs, v :: vs, h => by
    simp only [Env.bind]
    exact Agree.bind xs vs (h.set x v)

theorem agree_set_tmp {n i : ℕ} (env : Env V) (v : V) (hi : n ≤ i) : Agree n env (env.set (tmp i) v) := by
  intro x hx
  unfold Env.set
  rw [if_neg (hx i hi)]

mutual

theorem eval_agree (S : Sem V W E) : ∀ (e : Expr) (env env' : Env V), (∀ x ∈ names e, ¬ IsTmp x) → Agree 0 env env' → eval S env e = eval S env' e
  | .name x, env, env', hn, h => by
    funext w
    have := h x fun i _ hi => hn x (by simp [names]) ⟨i, hi⟩
    simp only [eval, this]
  | .lit k, env, env', hn, h => by
    funext w
    simp only [eval]
  | .op k l, env, env', hn, h => by
    funext w
    simp only [eval, evalAll_agree S l env env' hn h]
  | .ctrl k fixed xs l, env, env', hn, h => by
    funext w
    simp only [eval, thunks_agree S xs l env env' (fun x hx => hn x (by simp [names, hx])) h]
  | .cand e, env, env', hn, h => by
    funext w
    simp only [eval, eval_agree S e env env' hn h]

theorem evalAll_agree (S : Sem V W E) : ∀ (l : List Expr) (env env' : Env V), (∀ x ∈ namesAll l, ¬ IsTmp x) → Agree 0 env env' →
    evalAll S env l = evalAll S env' l
  | [], env, env', hn, h => by
    funext w
    simp only [evalAll]
  | e :: l, env, env', hn, h => by
    funext w
    simp only [evalAll, eval_agree S e env env' (fun x hx => hn x (by simp [namesAll, hx])) h,
      evalAll_agree S l env env' (fun x hx => hn x (by simp [namesAll, hx])) h]

theorem thunks_agree (S : Sem V W E) (xs : List String) : ∀ (l : List Expr) (env env' : Env V), (∀ x ∈ namesAll l, ¬ IsTmp x) → Agree 0 env env' →
    thunks S env xs l = thunks S env' xs l
  | [], env, env', hn, h => by simp only [thunks]
  | e :: l, env, env', hn, h => by
    simp only [thunks, thunks_agree S xs l env env' (fun x hx => hn x (by simp [namesAll, hx])) h, List.cons.injEq, and_true]
    funext vs
    exact eval_agree S e _ _ (fun x hx => hn x (by simp [namesAll, hx])) (h.bind xs vs)

end

mutual

theorem eval_later {S : Sem V W E} {quiet : Kind → Prop} {Later : W → W → Prop} (hs : Stable S quiet Later) : ∀ (e : Expr) (env : Env V) (w : W),
    Later w (eval S env e w).2
  | .name x, env, w => by simp only [eval]; exact hs.refl w
  | .lit k, env, w => by simp only [eval]; exact hs.refl w
  | .op k l, env, w => by
    simp only [eval]
    have h := evalAll_later hs l env w
    generalize evalAll S env l w = r at h ⊢
    match r, h with
    | (.error x, w'), h => exact h
    | (.ok vs, w'), h => exact hs.trans _ _ _ h (hs.prim k vs w')
  | .ctrl k fixed xs l, env, w => by
    simp only [eval]
    exact hs.ctrl k _ w (thunks_later hs xs l env)
  | .cand e, env, w => by
    simp only [eval]
    exact eval_later hs e env w

theorem evalAll_later {S : Sem V W E} {quiet : Kind → Prop} {Later : W → W → Prop} (hs : Stable S quiet Later) : ∀ (l : List Expr) (env : Env V) (w : W),
    Later w (evalAll S env l w).2
  | [], env, w => by simp only [evalAll]; exact hs.refl w
  | e :: l, env, w => by
    simp only [evalAll]
    have h := eval_later hs e env w
    generalize eval S env e w = r at h ⊢
    match r, h with
    | (.error x, w'), h => exact h
    | (.ok v, w'), h =>
      simp only
      have h' := evalAll_later hs l env w'
      generalize evalAll S env l w' = r at h' ⊢
      match r, h' with
      | (.error x, w''), h' => exact hs.trans _ _ _ h h'
      | (.ok vs, w''), h' => exact hs.trans _ _ _ h h'

theorem thunks_later {S : Sem V W E} {quiet : Kind → Prop} {Later : W → W → Prop} (hs : Stable S quiet Later) (xs : List String) : ∀ (l : List Expr)
    (env : Env V), ∀ t ∈ thunks S env xs l, ∀ vs w, Later w (t vs w).2
  | [], env => by simp [thunks]
  | e :: l, env => by
    intro t ht vs w
    simp only [thunks, List.mem_cons] at ht
    rcases ht with rfl | ht
    · exact eval_later hs e _ w
    · exact thunks_later hs xs l env t ht vs w

end

/-! #### What stays put -/

/-- Nothing is marked: the candidates are those that are there. -/
abbrev none' : Kind → List Expr → Bool := fun _ _ => false

mutual

theorem iso_inside : ∀ (e : Expr) (n : ℕ), iso true e n = (e, [])
  | .name x, n => by simp [iso]
  | .lit k, n => by simp [iso]
  | .op k l, n => by simp [iso, isoAll_inside l n]
  | .ctrl k fixed xs l, n => by simp [iso, isoAll_inside l n]
  | .cand e, n => by simp [iso, iso_inside e n]

theorem isoAll_inside : ∀ (l : List Expr) (n : ℕ), isoAll true l n = (l, [])
  | [], n => by simp [isoAll]
  | e :: l, n => by simp [isoAll, iso_inside e n, isoAll_inside l]

end

mutual

theorem iso_stays : ∀ (e : Expr) (n : ℕ), ¬ Moves none' e → iso false e n = (e, [])
  | .name x, n, h => by simp [iso]
  | .lit k, n, h => by simp [iso]
  | .op k l, n, h => by
    simp only [Moves, Bool.false_eq_true, false_or] at h
    simp [iso, isoAll_stays l n h]
  | .ctrl k fixed xs l, n, h => by
    cases fixed with
    | true => simp [iso, isoAll_inside l n]
    | false =>
      simp only [Moves, true_and] at h
      simp [iso, isoAll_stays l n h]
  | .cand e, n, h => by simp [Moves] at h

theorem isoAll_stays : ∀ (l : List Expr) (n : ℕ), ¬ MovesAny none' l → isoAll false l n = (l, [])
  | [], n, h => by simp [isoAll]
  | e :: l, n, h => by
    simp only [MovesAny, not_or] at h
    simp [isoAll, iso_stays e n h.1, isoAll_stays l _ h.2]

end

mutual

theorem calm_of_stays (p : Kind → List Expr → Bool) (quiet : Kind → Prop) : ∀ e : Expr, ¬ Moves p e → Calm p quiet e
  | .name x, h => by simp [Calm]
  | .lit k, h => by simp [Calm]
  | .op k l, h => by
    simp only [Moves, not_or] at h
    simp only [Calm]
    exact calmAll_of_stays p quiet l h.2
  | .ctrl k fixed xs l, h => by
    simp only [Calm]
    simp only [Moves, not_and] at h
    cases fixed with
    | true => exact Or.inl rfl
    | false => exact Or.inr (h rfl)
  | .cand e, h => by simp [Moves] at h

theorem calmAll_of_stays (p : Kind → List Expr → Bool) (quiet : Kind → Prop) : ∀ l : List Expr, ¬ MovesAny p l → CalmAll p quiet l
  | [], h => by simp [CalmAll]
  | e :: l, h => by
    simp only [MovesAny, not_or] at h
    simp only [CalmAll]
    exact ⟨calm_of_stays p quiet e h.1, fun h' => absurd h' h.2, calmAll_of_stays p quiet l h.2⟩

end

/-! #### Marking -/

mutual

theorem eval_mark (S : Sem V W E) (p : Kind → List Expr → Bool) : ∀ (e : Expr) (env : Env V), eval S env (mark p e) = eval S env e
  | .name x, env => by simp only [mark]
  | .lit k, env => by simp only [mark]
  | .op k l, env => by
    funext w
    simp only [mark]
    split <;> simp only [eval, evalAll_mark S p l env]
  | .ctrl k fixed xs l, env => by
    funext w
    simp only [mark, eval, thunks_mark S p xs l env]
  | .cand e, env => by
    funext w
    simp only [mark, eval, eval_mark S p e env]

theorem evalAll_mark (S : Sem V W E) (p : Kind → List Expr → Bool) : ∀ (l : List Expr) (env : Env V), evalAll S env (markAll p l) = evalAll S env l
  | [], env => by simp only [markAll]
  | e :: l, env => by
    funext w
    simp only [markAll, evalAll, eval_mark S p e env, evalAll_mark S p l env]

theorem thunks_mark (S : Sem V W E) (p : Kind → List Expr → Bool) (xs : List String) : ∀ (l : List Expr) (env : Env V),
    thunks S env xs (markAll p l) = thunks S env xs l
  | [], env => by simp only [markAll]
  | e :: l, env => by
    simp only [markAll, thunks, thunks_mark S p xs l env, List.cons.injEq, and_true]
    funext vs
    exact eval_mark S p e _

end

mutual

theorem names_mark (p : Kind → List Expr → Bool) : ∀ e : Expr, names (mark p e) = names e
  | .name x => by simp only [mark]
  | .lit k => by simp only [mark]
  | .op k l => by
    simp only [mark]
    split <;> simp only [names, namesAll_mark p l]
  | .ctrl k fixed xs l => by simp only [mark, names, namesAll_mark p l]
  | .cand e => by simp only [mark, names, names_mark p e]

theorem namesAll_mark (p : Kind → List Expr → Bool) : ∀ l : List Expr, namesAll (markAll p l) = namesAll l
  | [] => by simp only [markAll]
  | e :: l => by simp only [markAll, namesAll, names_mark p e, namesAll_mark p l]

end

mutual

theorem moves_mark (p : Kind → List Expr → Bool) : ∀ e : Expr, Moves none' (mark p e) ↔ Moves p e
  | .name x => by simp only [mark, Moves]
  | .lit k => by simp only [mark, Moves]
  | .op k l => by
    simp only [mark]
    split
    · simp [Moves, *]
    · simp [Moves, movesAny_mark p l, *]
  | .ctrl k fixed xs l => by simp only [mark, Moves, movesAny_mark p l]
  | .cand e => by simp only [mark, Moves]

theorem movesAny_mark (p : Kind → List Expr → Bool) : ∀ l : List Expr, MovesAny none' (markAll p l) ↔ MovesAny p l
  | [] => by simp only [markAll, MovesAny]
  | e :: l => by simp only [markAll, MovesAny, moves_mark p e, movesAny_mark p l]

end

mutual

theorem settled_mark (p : Kind → List Expr → Bool) (quiet : Kind → Prop) : ∀ e : Expr, Settled none' quiet (mark p e) ↔ Settled p quiet e
  | .name x => by simp only [mark, Settled]
  | .lit k => by simp only [mark, Settled]
  | .op k l => by
    simp only [mark]
    split
    · simp [Settled, *]
    · simp [Settled, settledAll_mark p quiet l, *]
  | .ctrl k fixed xs l => by simp only [mark, Settled]
  | .cand e => by simp only [mark, Settled]

theorem settledAll_mark (p : Kind → List Expr → Bool) (quiet : Kind → Prop) : ∀ l : List Expr, SettledAll none' quiet (markAll p l) ↔ SettledAll p quiet l
  | [] => by simp only [markAll, SettledAll]
  | e :: l => by simp only [markAll, SettledAll, settled_mark p quiet e, settledAll_mark p quiet l]

end

mutual

theorem calm_mark (p : Kind → List Expr → Bool) (quiet : Kind → Prop) : ∀ e : Expr, Calm none' quiet (mark p e) ↔ Calm p quiet e
  | .name x => by simp only [mark, Calm]
  | .lit k => by simp only [mark, Calm]
  | .op k l => by
    simp only [mark]
    split <;> simp only [Calm, calmAll_mark p quiet l]
  | .ctrl k fixed xs l => by simp only [mark, Calm, movesAny_mark p l]
  | .cand e => by simp only [mark, Calm, calm_mark p quiet e]

theorem calmAll_mark (p : Kind → List Expr → Bool) (quiet : Kind → Prop) : ∀ l : List Expr, CalmAll none' quiet (markAll p l) ↔ CalmAll p quiet l
  | [] => by simp only [markAll, CalmAll]
  | e :: l => by simp only [markAll, CalmAll, calm_mark p quiet e, settled_mark p quiet e, movesAny_mark p l, calmAll_mark p quiet l]

end

/-! #### Moving candidates -/

/-- The assignments of temporaries, one after the other. -/
def runIns (S : Sem V W E) : List (ℕ × Expr) → Env V → W → Except E Unit × Env V × W
  | [], env, w => (.ok (), env, w)
  | (i, e) :: l, env, w =>
    match eval S env e w with
    | (.error x, w) => (.error x, env, w)
    | (.ok v, w) => runIns S l (env.set (tmp i) v) w

theorem runIns_append (S : Sem V W E) : ∀ (l l' : List (ℕ × Expr)) (env : Env V) (w : W), runIns S (l ++ l') env w =
    match runIns S l env w with
    | (.error x, env, w) => (.error x, env, w)
    | (.ok _, env, w) => runIns S l' env w
  | [], l', env, w => by simp [runIns]
  | (i, e) :: l, l', env, w => by
    simp only [List.cons_append, runIns]
    split
    · rfl
    · exact runIns_append S l l' _ _

/-- After the assignments of temporaries, `eval'` gives what `r` is: or the assignments raise what it raises. -/
def Moved (S : Sem V W E) (Later : W → W → Prop) (ins : List (ℕ × Expr)) (n : ℕ) (env' : Env V) (w : W) {A : Type} (eval' : Env V → W → Except E A × W)
    (r : Except E A × W) (settled : Prop) : Prop :=
  Agree n env' (runIns S ins env' w).2.1 ∧
  match runIns S ins env' w with
  | (.error x, _, w') => r = (.error x, w')
  | (.ok _, env1, w') => Later w w' ∧ (∀ env2, Agree (n + ins.length) env1 env2 → eval' env2 w' = r) ∧
      (settled → w' = r.2 ∧ ∃ v, r.1 = .ok v ∧ ∀ env2, Agree (n + ins.length) env1 env2 → ∀ w2, Later w' w2 → eval' env2 w2 = (.ok v, w2))

/-- The run is one that the claim is about. -/
def Good (S : Sem V W E) (quiet : Kind → Prop) {A : Type} (r : Except E A × W) : Prop := (∃ v, r.1 = .ok v) ∨ NeverRaises S quiet

theorem moved_stays {S : Sem V W E} {Later : W → W → Prop} (hr : ∀ w, Later w w) {A : Type} {eval' : Env V → W → Except E A × W} {r : Except E A × W}
    {env env' : Env V} {w : W} (n : ℕ) (h : Agree 0 env env') (hsame : ∀ env2, Agree 0 env env2 → eval' env2 w = r) {settled : Prop} (hns : ¬ settled) :
    Moved S Later [] n env' w eval' r settled := by
  refine ⟨Agree.refl _ _, hr w, fun env2 h2 => hsame env2 (h.trans (h2.mono (Nat.zero_le _))), fun hs => absurd hs hns⟩

mutual

theorem iso_ok {S : Sem V W E} {quiet : Kind → Prop} {Later : W → W → Prop} (hs : Stable S quiet Later) : ∀ (e : Expr) (n : ℕ) (env env' : Env V) (w : W),
    (∀ x ∈ names e, ¬ IsTmp x) → Agree 0 env env' → Calm none' quiet e → Good S quiet (eval S env e w) →
    Moved S Later (iso false e n).2 n env' w (fun env2 w2 => eval S env2 (iso false e n).1 w2) (eval S env e w) (Settled none' quiet e)
  | .name x, n, env, env', w, hn, ha, hc, hg => by
    have hx : ∀ i, 0 ≤ i → x ≠ tmp i := fun i _ hi => hn x (by simp [names]) ⟨i, hi⟩
    have he : ∀ env2, Agree (n + 0) env' env2 → env2 x = env x := fun env2 h2 => ((ha.trans (h2.mono (Nat.zero_le _))) x hx).symm
    simp only [iso]
    refine ⟨Agree.refl _ _, hs.refl w, fun env2 h2 => ?_, fun _ => ?_⟩
    · simp only [eval, he env2 h2]
    · simp only [eval] at hg ⊢
      have hok : ∃ v, (match env x with | some v => Except.ok v | none => S.glob x w) = .ok v := by
        rcases hg with hg | hg
        · exact hg
        · cases env x with
          | some v => exact ⟨v, rfl⟩
          | none => exact hg.glob x w
      obtain ⟨v, hv⟩ := hok
      refine ⟨trivial, v, hv, fun env2 h2 w2 hw => ?_⟩
      rw [he env2 h2]
      cases hx : env x with
      | some u =>
        rw [hx] at hv
        simpa using hv
      | none =>
        rw [hx] at hv
        simp only at hv ⊢
        rw [hs.glob x w w2 v hw hv]
  | .lit k, n, env, env', w, hn, ha, hc, hg => by
    simp only [iso]
    exact ⟨Agree.refl _ _, hs.refl w, fun env2 _ => by simp only [eval], fun _ => ⟨rfl, _, rfl, fun env2 _ w2 _ => by simp only [eval]⟩⟩
  | .op k l, n, env, env', w, hn, ha, hc, hg => by
    simp only [Calm] at hc
    simp only [iso]
    have hgl : Good S quiet (evalAll S env l w) := by
      rcases hg with ⟨v, hv⟩ | hg
      · left
        simp only [eval] at hv
        split at hv
        · simp at hv
        · rename_i vs w' h
          exact ⟨vs, by rw [h]⟩
      · exact Or.inr hg
    obtain ⟨hag, ih⟩ := isoAll_ok hs l n env env' w hn ha hc hgl
    refine ⟨hag, ?_⟩
    generalize hrun : runIns S (isoAll false l n).2 env' w = run at ih hag ⊢
    match run, ih with
    | (.error x, env1, w'), ih =>
      simp only at ih ⊢
      simp only [eval, ih]
    | (.ok _, env1, w'), ih =>
      simp only at ih ⊢
      obtain ⟨hl, hv, hset⟩ := ih
      refine ⟨hl, fun env2 h2 => ?_, fun hq => ?_⟩
      · simp only [eval, hv env2 h2]
      · simp only [Settled, Bool.false_eq_true, false_or] at hq
        obtain ⟨hw', vs, hvs, hst⟩ := hset hq.2
        have hall : evalAll S env l w = (.ok vs, w') := Prod.ext hvs hw'.symm
        simp only [eval, hall] at hg ⊢
        have hok : ∃ v, (S.prim k vs w').1 = .ok v := by
          rcases hg with hg | hg
          · exact hg
          · exact hg.prim k hq.1 vs w'
        obtain ⟨v, hv1⟩ := hok
        obtain ⟨hw1, hq1⟩ := hs.quiet k hq.1 vs w' v (S.prim k vs w').2 (Prod.ext hv1 rfl)
        refine ⟨hw1.symm, v, hv1, fun env2 h2 w2 hw2 => ?_⟩
        rw [hst env2 h2 w2 hw2]
        exact hq1 w2 hw2
  | .ctrl k fixed xs l, n, env, env', w, hn, ha, hc, hg => by
    have hiso : iso false (.ctrl k fixed xs l) n = (.ctrl k fixed xs l, []) := by
      simp only [Calm] at hc
      refine iso_stays _ n ?_
      simp only [Moves, not_and]
      rintro rfl
      rcases hc with hc | hc
      · simp at hc
      · exact hc
    rw [hiso]
    exact moved_stays hs.refl n ha (fun env2 h2 => by rw [eval_agree S _ env env2 hn h2]) (by simp [Settled])
  | .cand e, n, env, env', w, hn, ha, hc, hg => by
    simp only [Calm] at hc
    have hcand : ∀ env w, eval S env (.cand e) w = eval S env e w := fun env w => by simp only [eval]
    have hcand' : ∀ env w, eval S env (.cand (iso false e n).1) w = eval S env (iso false e n).1 w := fun env w => by simp only [eval]
    rw [hcand] at hg ⊢
    obtain ⟨hag, ih⟩ := iso_ok hs e n env env' w hn ha hc hg
    simp only [iso, Bool.false_eq_true, if_false]
    unfold Moved
    rw [runIns_append]
    have hlater := eval_later hs e env w
    generalize hrun : runIns S (iso false e n).2 env' w = run at ih hag ⊢
    match run, ih, hag with
    | (.error x, env1, w'), ih, hag => exact ⟨hag, ih⟩
    | (.ok _, env1, w'), ih, hag =>
      simp only at ih hag ⊢
      obtain ⟨hl, hv, _⟩ := ih
      have h1 := hv env1 (Agree.refl _ _)
      simp only [runIns, hcand', h1]
      generalize hev : eval S env e w = r at hlater ⊢
      match r, hlater with
      | (.error x, w1), hlater => exact ⟨hag, rfl⟩
      | (.ok v, w1), hlater =>
        have hlen : ((iso false e n).2 ++ [(n + (iso false e n).2.length, Expr.cand (iso false e n).1)]).length = (iso false e n).2.length + 1 := by simp
        have key : ∀ env2, Agree (n + ((iso false e n).2.length + 1)) (env1.set (tmp (n + (iso false e n).2.length)) v) env2 → ∀ w2,
            eval S env2 (.name (tmp (n + (iso false e n).2.length))) w2 = (.ok v, w2) := by
          intro env2 h2 w2
          have := h2 (tmp (n + (iso false e n).2.length)) fun i hi he => by
            have := tmp_inj he
            omega
          simp only [eval, ← this, Env.set, if_true]
        simp only [hlen]
        exact ⟨hag.trans (agree_set_tmp env1 v (Nat.le_add_right _ _)), hlater, fun env2 h2 => key env2 h2 w1,
          fun _ => ⟨trivial, v, rfl, fun env2 h2 w2 _ => key env2 h2 w2⟩⟩

theorem isoAll_ok {S : Sem V W E} {quiet : Kind → Prop} {Later : W → W → Prop} (hs : Stable S quiet Later) : ∀ (l : List Expr) (n : ℕ) (env env' : Env V)
    (w : W), (∀ x ∈ namesAll l, ¬ IsTmp x) → Agree 0 env env' → CalmAll none' quiet l → Good S quiet (evalAll S env l w) →
    Moved S Later (isoAll false l n).2 n env' w (fun env2 w2 => evalAll S env2 (isoAll false l n).1 w2) (evalAll S env l w) (SettledAll none' quiet l)
  | [], n, env, env', w, hn, ha, hc, hg => by
    simp only [isoAll]
    exact ⟨Agree.refl _ _, hs.refl w, fun env2 _ => by simp only [evalAll], fun _ => ⟨rfl, _, rfl, fun env2 _ w2 _ => by simp only [evalAll]⟩⟩
  | e :: l, n, env, env', w, hn, ha, hc, hg => by
    simp only [CalmAll] at hc
    obtain ⟨hce, hmv, hcl⟩ := hc
    have hne : ∀ x ∈ names e, ¬ IsTmp x := fun x hx => hn x (by simp [namesAll, hx])
    have hnl : ∀ x ∈ namesAll l, ¬ IsTmp x := fun x hx => hn x (by simp [namesAll, hx])
    have hge : Good S quiet (eval S env e w) := by
      rcases hg with ⟨v, hv⟩ | hg
      · left
        simp only [evalAll] at hv
        split at hv
        · simp at hv
        · rename_i u w' h
          exact ⟨u, by rw [h]⟩
      · exact Or.inr hg
    obtain ⟨hag, ih⟩ := iso_ok hs e n env env' w hne ha hce hge
    simp only [isoAll]
    unfold Moved
    rw [runIns_append]
    generalize hrun : runIns S (iso false e n).2 env' w = run at ih hag ⊢
    match run, ih, hag with
    | (.error x, env1, w'), ih, hag =>
      simp only at ih ⊢
      refine ⟨hag, ?_⟩
      simp only [evalAll, ih]
    | (.ok _, env1, w'), ih, hag =>
      simp only at ih hag ⊢
      obtain ⟨hl, hv, hset⟩ := ih
      by_cases hse : Settled none' quiet e
      · obtain ⟨hw', v, hv1, hst⟩ := hset hse
        have hev : eval S env e w = (.ok v, w') := Prod.ext hv1 hw'.symm
        have ha1 : Agree 0 env env1 := ha.trans (hag.mono (Nat.zero_le _))
        have hgl : Good S quiet (evalAll S env l w') := by
          rcases hg with ⟨u, hu⟩ | hg
          · left
            simp only [evalAll, hev] at hu
            split at hu
            · simp at hu
            · rename_i vs w'' h
              exact ⟨vs, by rw [h]⟩
          · exact Or.inr hg
        obtain ⟨hag2, ih2⟩ := isoAll_ok hs l (n + (iso false e n).2.length) env1 env1 w' hnl (Agree.refl _ _) hcl
          (by rw [← evalAll_agree S l env env1 hnl ha1]; exact hgl)
        rw [← evalAll_agree S l env env1 hnl ha1] at ih2
        have hag3 : Agree n env' (runIns S (isoAll false l (n + (iso false e n).2.length)).2 env1 w').2.1 := hag.trans (hag2.mono (Nat.le_add_right _ _))
        refine ⟨hag3, ?_⟩
        generalize hrun2 : runIns S (isoAll false l (n + (iso false e n).2.length)).2 env1 w' = run2 at ih2 hag2 ⊢
        match run2, ih2, hag2 with
        | (.error x, env3, w3), ih2, hag2 =>
          simp only at ih2 ⊢
          simp only [evalAll, hev, ih2]
        | (.ok _, env3, w3), ih2, hag2 =>
          simp only at ih2 hag2 ⊢
          obtain ⟨hl2, hv2, hset2⟩ := ih2
          rw [List.length_append]
          have hfirst : ∀ env2, Agree (n + ((iso false e n).2.length + (isoAll false l (n + (iso false e n).2.length)).2.length)) env3 env2 →
              ∀ w2, Later w' w2 → eval S env2 (iso false e n).1 w2 = (.ok v, w2) := fun env2 h2 w2 hw2 =>
            hst env2 (hag2.trans (h2.mono (by omega))) w2 hw2
          refine ⟨hs.trans _ _ _ hl hl2, fun env2 h2 => ?_, fun hq => ?_⟩
          · simp only [evalAll, hfirst env2 h2 w3 hl2, hev]
            rw [hv2 env2 (by rw [Nat.add_assoc]; exact h2)]
          · simp only [SettledAll] at hq
            obtain ⟨hw3, vs, hvs, hst2⟩ := hset2 hq.2
            have hall : evalAll S env l w' = (.ok vs, w3) := Prod.ext hvs hw3.symm
            simp only [evalAll, hev, hall]
            refine ⟨trivial, v :: vs, rfl, fun env2 h2 w2 hw2 => ?_⟩
            rw [hfirst env2 h2 w2 (hs.trans _ _ _ hl2 hw2)]
            simp only
            rw [hst2 env2 (by rw [Nat.add_assoc]; exact h2) w2 hw2]
      · have hstay : ¬ MovesAny none' l := fun h => hse (hmv h)
        rw [isoAll_stays l _ hstay]
        simp only [runIns, List.append_nil]
        refine ⟨hag, hl, fun env2 h2 => ?_, fun hq => ?_⟩
        · simp only [evalAll, hv env2 h2]
          rw [evalAll_agree S l env env2 hnl (ha.trans ((hag.mono (Nat.zero_le _)).trans (h2.mono (Nat.zero_le _))))]
        · simp only [SettledAll] at hq
          exact absurd hq.1 hse

end

/-! #### Statements -/

/-- The same end, but for temporaries. -/
def Rel : Res V W E → Res V W E → Prop
  | none, none => True
  | some (o, env, w), some (o', env', w') => o = o' ∧ w = w' ∧ Agree 0 env env'
  | _, _ => False

/-- The run is one that the claim is about. -/
def GoodRes (S : Sem V W E) (quiet : Kind → Prop) (r : Res V W E) : Prop := (∃ o env w, r = some (o, env, w) ∧ ∀ x, o ≠ .exc x) ∨ NeverRaises S quiet

theorem Rel.trans {a b c : Res V W E} (h : Rel a b) (h' : Rel b c) : Rel a c := by
  match a, b, c, h, h' with
  | none, none, none, _, _ => trivial
  | some (o, env, w), some (o1, env1, w1), some (o2, env2, w2), h, h' =>
    obtain ⟨rfl, rfl, h⟩ := h
    obtain ⟨rfl, rfl, h'⟩ := h'
    exact ⟨rfl, rfl, h.trans h'⟩

theorem GoodRes.rel {S : Sem V W E} {quiet : Kind → Prop} {a b : Res V W E} (hg : GoodRes S quiet a) (h : Rel a b) : GoodRes S quiet b := by
  rcases hg with ⟨o, env, w, rfl, ho⟩ | hg
  · match b, h with
    | some (o', env', w'), h =>
      obtain ⟨rfl, rfl, _⟩ := h
      exact Or.inl ⟨_, _, _, rfl, ho⟩
  · exact Or.inr hg

theorem rel_same {r : Out V E} {env env' : Env V} {w : W} (h : Agree 0 env env') : Rel (some (r, env, w)) (some (r, env', w)) := ⟨rfl, rfl, h⟩

theorem good_exc {S : Sem V W E} {quiet : Kind → Prop} {x : E} {env : Env V} {w : W} (h : GoodRes S quiet (some (.exc x, env, w))) : NeverRaises S quiet := by
  rcases h with ⟨o, env', w', h, ho⟩ | h
  · simp only [Option.some.injEq, Prod.mk.injEq] at h
    exact absurd h.1.symm (ho x)
  · exact h

theorem good_value {S : Sem V W E} {quiet : Kind → Prop} {e : Expr} {env : Env V} {w : W} {f : V → W → Res V W E} (h : GoodRes S quiet (withValue S e env w f)) :
    Good S quiet (eval S env e w) := by
  unfold withValue at h
  split at h
  · exact Or.inr (good_exc h)
  · rename_i v w' hv
    exact Or.inl ⟨v, by rw [hv]⟩

/-- After the assignments of temporaries. -/
def afterIns (S : Sem V W E) (ins : List (ℕ × Expr)) (env : Env V) (w : W) (f : Env V → W → Res V W E) : Res V W E :=
  match runIns S ins env w with
  | (.error x, env, w) => some (.exc x, env, w)
  | (.ok _, env, w) => f env w

theorem exec_ins (S : Sem V W E) (fuel : ℕ) (rest : List Stmt) : ∀ (ins : List (ℕ × Expr)) (env : Env V) (w : W),
    execBlock S fuel (ins.map insertion ++ rest) env w = afterIns S ins env w (execBlock S fuel rest)
  | [], env, w => by simp [afterIns, runIns]
  | (i, e) :: l, env, w => by
    have ih := exec_ins S fuel rest l
    simp only [List.map_cons, List.cons_append, execBlock, insertion, exec, execLine, execSmall, withValue, afterIns, runIns] at ih ⊢
    generalize eval S env e w = r
    match r with
    | (.error x, w') => simp [seqRes]
    | (.ok v, w') =>
      simp only [assignTo, seqRes]
      exact ih _ _

theorem value_ok {S : Sem V W E} {quiet : Kind → Prop} {Later : W → W → Prop} {ins : List (ℕ × Expr)} {n : ℕ} {env env' : Env V} {w : W} {e e' : Expr} {P : Prop}
    (hm : Moved S Later ins n env' w (fun env2 w2 => eval S env2 e' w2) (eval S env e w) P) (ha : Agree 0 env env') {f : V → W → Res V W E}
    {f' : Env V → V → W → Res V W E} (hg : GoodRes S quiet (withValue S e env w f))
    (hf : ∀ env1 v w1, Agree 0 env env1 → GoodRes S quiet (f v w1) → Rel (f v w1) (f' env1 v w1)) :
    Rel (withValue S e env w f) (afterIns S ins env' w fun env1 w1 => withValue S e' env1 w1 (f' env1)) := by
  obtain ⟨hag, hm⟩ := hm
  unfold afterIns
  generalize runIns S ins env' w = run at hm hag ⊢
  match run, hm, hag with
  | (.error x, env1, w'), hm, hag =>
    simp only at hm ⊢
    unfold withValue
    rw [hm]
    exact rel_same (ha.trans (hag.mono (Nat.zero_le _)))
  | (.ok _, env1, w'), hm, hag =>
    simp only at hm hag ⊢
    have ha1 : Agree 0 env env1 := ha.trans (hag.mono (Nat.zero_le _))
    have h1 := hm.2.1 env1 (Agree.refl _ _)
    unfold withValue at hg ⊢
    rw [h1]
    generalize eval S env e w = r at hg ⊢
    match r, hg with
    | (.error x, w1), hg => exact rel_same ha1
    | (.ok v, w1), hg => exact hf env1 v w1 ha1 hg

/-- An expression that does not change. -/
theorem value_agree {S : Sem V W E} {quiet : Kind → Prop} {env env' : Env V} {w : W} {e e' : Expr} (he : eval S env e = eval S env' e') (ha : Agree 0 env env')
    {f f' : V → W → Res V W E} (hg : GoodRes S quiet (withValue S e env w f)) (hf : ∀ v w1, GoodRes S quiet (f v w1) → Rel (f v w1) (f' v w1)) :
    Rel (withValue S e env w f) (withValue S e' env' w f') := by
  unfold withValue at hg ⊢
  rw [← he]
  generalize eval S env e w = r at hg ⊢
  match r, hg with
  | (.error x, w1), hg => exact rel_same ha
  | (.ok v, w1), hg => exact hf v w1 hg

theorem truth_agree {S : Sem V W E} {quiet : Kind → Prop} {env env' : Env V} {w : W} {e e' : Expr} (he : eval S env e = eval S env' e') (ha : Agree 0 env env')
    {f f' : Bool → W → Res V W E} (hg : GoodRes S quiet (withTruth S e env w f)) (hf : ∀ v w1, GoodRes S quiet (f v w1) → Rel (f v w1) (f' v w1)) :
    Rel (withTruth S e env w f) (withTruth S e' env' w f') := by
  unfold withTruth at hg ⊢
  refine value_agree he ha hg fun v w1 hg => ?_
  generalize S.truth v w1 = r at hg ⊢
  match r, hg with
  | (.error x, w1), hg => exact rel_same ha
  | (.ok v, w1), hg => exact hf v w1 hg

theorem assignTo_agree {S : Sem V W E} {quiet : Kind → Prop} (v : V) : ∀ (ts : List Target) (env env' : Env V) (w : W),
    (∀ t ∈ ts, ∀ x ∈ namesTarget t, ¬ IsTmp x) → Agree 0 env env' → GoodRes S quiet (assignTo S v ts env w) → Rel (assignTo S v ts env w) (assignTo S v ts env' w)
  | [], env, env', w, hn, ha, hg => rel_same ha
  | .name x :: ts, env, env', w, hn, ha, hg => by
    simp only [assignTo] at hg ⊢
    exact assignTo_agree v ts _ _ w (fun t ht => hn t (by simp [ht])) (ha.set x v) hg
  | .store k es :: ts, env, env', w, hn, ha, hg => by
    simp only [assignTo] at hg ⊢
    rw [← evalAll_agree S es env env' (fun x hx => hn (.store k es) (by simp) x hx) ha]
    generalize evalAll S env es w = r at hg ⊢
    match r, hg with
    | (.error x, w1), hg => exact rel_same ha
    | (.ok vs, w1), hg =>
      simp only at hg ⊢
      generalize S.store k vs v w1 = r at hg ⊢
      match r, hg with
      | (.error x, w2), hg => exact rel_same ha
      | (.ok _, w2), hg => exact assignTo_agree v ts _ _ w2 (fun t ht => hn t (by simp [ht])) ha hg

theorem isoTop_ok {S : Sem V W E} {quiet : Kind → Prop} {Later : W → W → Prop} (hs : Stable S quiet Later) (e : Expr) (n : ℕ) (env env' : Env V) (w : W)
    (hn : ∀ x ∈ names e, ¬ IsTmp x) (ha : Agree 0 env env') (hc : Calm none' quiet e) (hg : Good S quiet (eval S env e w)) :
    ∃ P, Moved S Later (isoTop e n).2 n env' w (fun env2 w2 => eval S env2 (isoTop e n).1 w2) (eval S env e w) P := by
  unfold isoTop
  split
  · rename_i e
    simp only [eval] at hg ⊢
    simp only [Calm] at hc
    exact ⟨_, iso_ok hs e n env env' w hn ha hc hg⟩
  · exact ⟨_, iso_ok hs e n env env' w hn ha hc hg⟩

theorem isoTargets_stays : ∀ (ts : List Target) (n : ℕ), (∀ t ∈ ts, TargetStays none' t) → isoTargets ts n = (ts, [])
  | [], n, h => by simp [isoTargets]
  | .name x :: ts, n, h => by simp [isoTargets, isoTargets_stays ts n fun t ht => h t (by simp [ht])]
  | .store k es :: ts, n, h => by
    have hes : ¬ MovesAny none' es := h (.store k es) (by simp)
    simp [isoTargets, isoAll_stays es n hes, isoTargets_stays ts n fun t ht => h t (by simp [ht])]

theorem isoSmall_ok {S : Sem V W E} {quiet : Kind → Prop} {Later : W → W → Prop} (hs : Stable S quiet Later) (s : Small) (n : ℕ) (env env' : Env V) (w : W)
    (hn : ∀ x ∈ namesSmall s, ¬ IsTmp x) (ha : Agree 0 env env') (hc : CalmSmall none' quiet s) (haug : ∀ o t v, s ≠ .aug o t v)
    (hg : GoodRes S quiet (execSmall S s env w)) : Rel (execSmall S s env w) (afterIns S (isoSmall s n).2 env' w (execSmall S (isoSmall s n).1)) := by
  match s, hn, hc, haug, hg with
  | .assign ts v, hn, hc, haug, hg =>
    simp only [CalmSmall] at hc
    simp only [isoSmall, isoTargets_stays ts n hc.1, List.nil_append, List.length_nil, Nat.add_zero]
    simp only [execSmall] at hg ⊢
    obtain ⟨P, hm⟩ := isoTop_ok hs v n env env' w (fun x hx => hn x (by simp [namesSmall, hx])) ha hc.2 (good_value hg)
    refine value_ok hm ha hg fun env1 u w1 h1 hg1 => ?_
    exact assignTo_agree u ts env env1 w1 (fun t ht x hx => hn x (by simp only [namesSmall, List.mem_append, List.mem_flatMap]; exact Or.inl ⟨t, ht, hx⟩)) h1 hg1
  | .aug o t v, hn, hc, haug, hg => exact absurd rfl (haug o t v)
  | .expr e, hn, hc, haug, hg =>
    simp only [isoSmall, execSmall] at hg ⊢
    obtain ⟨P, hm⟩ := isoTop_ok hs e n env env' w hn ha hc (good_value hg)
    exact value_ok hm ha hg fun env1 u w1 h1 hg1 => rel_same h1
  | .ret none, hn, hc, haug, hg => exact rel_same ha
  | .ret (some e), hn, hc, haug, hg =>
    simp only [isoSmall, execSmall] at hg ⊢
    obtain ⟨P, hm⟩ := isoTop_ok hs e n env env' w hn ha (hc e rfl) (good_value hg)
    exact value_ok hm ha hg fun env1 u w1 h1 hg1 => rel_same h1
  | .throw e, hn, hc, haug, hg =>
    simp only [isoSmall, execSmall] at hg ⊢
    obtain ⟨P, hm⟩ := isoTop_ok hs e n env env' w hn ha hc (good_value hg)
    exact value_ok hm ha hg fun env1 u w1 h1 hg1 => rel_same h1
  | .check t m, hn, hc, haug, hg =>
    simp only [CalmSmall] at hc
    have hm' := iso_ok hs t n env env' w (fun x hx => hn x (by simp [namesSmall, hx])) ha hc.1
    have hres : ∃ m', isoSmall (.check t m) n = (.check (iso false t n).1 m', (iso false t n).2) ∧ m' = m := by
      cases m with
      | none => exact ⟨none, rfl, rfl⟩
      | some m =>
        have := iso_stays m (n + (iso false t n).2.length) (hc.2 m rfl)
        exact ⟨some m, by simp [isoSmall, this], rfl⟩
    obtain ⟨m', hiso, rfl⟩ := hres
    rw [hiso]
    simp only [execSmall, withTruth] at hg ⊢
    refine value_ok (hm' (good_value hg)) ha hg fun env1 u w1 h1 hg1 => ?_
    generalize S.truth u w1 = r at hg1 ⊢
    match r, hg1 with
    | (.error x, w2), hg1 => exact rel_same h1
    | (.ok true, w2), hg1 => exact rel_same h1
    | (.ok false, w2), hg1 =>
      simp only [Bool.false_eq_true, if_false] at hg1 ⊢
      cases m' with
      | none => exact rel_same h1
      | some m =>
        simp only at hg1 ⊢
        refine value_agree (eval_agree S m env env1 (fun x hx => hn x (by simp [namesSmall, hx])) h1) h1 hg1 fun v w3 _ => rel_same h1
  | .pass, hn, hc, haug, hg => exact rel_same ha
  | .brk, hn, hc, haug, hg => exact rel_same ha
  | .cont, hn, hc, haug, hg => exact rel_same ha

/-! #### Blocks -/

/-- Both do the same. -/
def Sim (S : Sem V W E) (quiet : Kind → Prop) (fuel : ℕ) (b b' : List Stmt) : Prop :=
  ∀ env env' w, Agree 0 env env' → GoodRes S quiet (execBlock S fuel b env w) → Rel (execBlock S fuel b env w) (execBlock S fuel b' env' w)

theorem Sim.trans {S : Sem V W E} {quiet : Kind → Prop} {fuel : ℕ} {a b c : List Stmt} (h : Sim S quiet fuel a b) (h' : Sim S quiet fuel b c) : Sim S quiet fuel a c := by
  intro env env' w ha hg
  have h1 := h env env w (Agree.refl _ _) hg
  exact h1.trans (h' env env' w ha (hg.rel h1))

theorem seq_rel {S : Sem V W E} {quiet : Kind → Prop} {r r' : Res V W E} {f f' : Env V → W → Res V W E} (hg : GoodRes S quiet (seqRes r f))
    (hr : GoodRes S quiet r → Rel r r') (hf : ∀ env env' w, Agree 0 env env' → GoodRes S quiet (f env w) → Rel (f env w) (f' env' w)) :
    Rel (seqRes r f) (seqRes r' f') := by
  have hgr : GoodRes S quiet r := by
    rcases hg with ⟨o, env, w, h, ho⟩ | hg
    · match r, h with
      | some (.next, env', w'), h => exact Or.inl ⟨_, _, _, rfl, nofun⟩
      | some (.brk, env', w'), h => exact Or.inl ⟨_, _, _, rfl, nofun⟩
      | some (.cont, env', w'), h => exact Or.inl ⟨_, _, _, rfl, nofun⟩
      | some (.ret v, env', w'), h => exact Or.inl ⟨_, _, _, rfl, nofun⟩
      | some (.exc x, env', w'), h =>
        simp only [seqRes, Option.some.injEq, Prod.mk.injEq] at h
        exact absurd h.1.symm (ho x)
      | none, h => simp [seqRes] at h
    · exact Or.inr hg
  have h := hr hgr
  match r, r', h with
  | none, none, _ => trivial
  | some (.next, env, w), some (o', env', w'), h =>
    obtain ⟨rfl, rfl, ha⟩ := h
    exact hf env env' w ha hg
  | some (.brk, env, w), some (o', env', w'), h =>
    obtain ⟨rfl, rfl, ha⟩ := h
    exact rel_same ha
  | some (.cont, env, w), some (o', env', w'), h =>
    obtain ⟨rfl, rfl, ha⟩ := h
    exact rel_same ha
  | some (.ret v, env, w), some (o', env', w'), h =>
    obtain ⟨rfl, rfl, ha⟩ := h
    exact rel_same ha
  | some (.exc x, env, w), some (o', env', w'), h =>
    obtain ⟨rfl, rfl, ha⟩ := h
    exact rel_same ha

theorem after_rel {S : Sem V W E} {quiet : Kind → Prop} {r r' : Res V W E} {f f' : Env V → W → Res V W E} (hg : GoodRes S quiet (afterBody r f))
    (hr : GoodRes S quiet r → Rel r r') (hf : ∀ env env' w, Agree 0 env env' → GoodRes S quiet (f env w) → Rel (f env w) (f' env' w)) :
    Rel (afterBody r f) (afterBody r' f') := by
  have hgr : GoodRes S quiet r := by
    rcases hg with ⟨o, env, w, h, ho⟩ | hg
    · match r, h with
      | some (.next, env', w'), h => exact Or.inl ⟨_, _, _, rfl, nofun⟩
      | some (.brk, env', w'), h => exact Or.inl ⟨_, _, _, rfl, nofun⟩
      | some (.cont, env', w'), h => exact Or.inl ⟨_, _, _, rfl, nofun⟩
      | some (.ret v, env', w'), h => exact Or.inl ⟨_, _, _, rfl, nofun⟩
      | some (.exc x, env', w'), h =>
        simp only [afterBody, Option.some.injEq, Prod.mk.injEq] at h
        exact absurd h.1.symm (ho x)
      | none, h => simp [afterBody] at h
    · exact Or.inr hg
  have h := hr hgr
  match r, r', h with
  | none, none, _ => trivial
  | some (.next, env, w), some (o', env', w'), h =>
    obtain ⟨rfl, rfl, ha⟩ := h
    exact hf env env' w ha hg
  | some (.brk, env, w), some (o', env', w'), h =>
    obtain ⟨rfl, rfl, ha⟩ := h
    exact rel_same ha
  | some (.cont, env, w), some (o', env', w'), h =>
    obtain ⟨rfl, rfl, ha⟩ := h
    exact hf env env' w ha hg
  | some (.ret v, env, w), some (o', env', w'), h =>
    obtain ⟨rfl, rfl, ha⟩ := h
    exact rel_same ha
  | some (.exc x, env, w), some (o', env', w'), h =>
    obtain ⟨rfl, rfl, ha⟩ := h
    exact rel_same ha

theorem execBlock_append (S : Sem V W E) (fuel : ℕ) : ∀ (a b : List Stmt) (env : Env V) (w : W),
    execBlock S fuel (a ++ b) env w = seqRes (execBlock S fuel a env w) (execBlock S fuel b)
  | [], b, env, w => by simp [execBlock, seqRes]
  | s :: a, b, env, w => by
    simp only [List.cons_append, execBlock]
    generalize exec S fuel s env w = r
    match r with
    | none => rfl
    | some (.next, env', w') =>
      simp only [seqRes]
      exact execBlock_append S fuel a b env' w'
    | some (.brk, env', w') => rfl
    | some (.cont, env', w') => rfl
    | some (.ret v, env', w') => rfl
    | some (.exc x, env', w') => rfl

theorem execBlock_single (S : Sem V W E) (fuel : ℕ) (s : Stmt) (env : Env V) (w : W) : execBlock S fuel [s] env w = exec S fuel s env w := by
  simp only [execBlock]
  generalize exec S fuel s env w = r
  match r with
  | none => rfl
  | some (.next, env', w') => rfl
  | some (.brk, env', w') => rfl
  | some (.cont, env', w') => rfl
  | some (.ret v, env', w') => rfl
  | some (.exc x, env', w') => rfl

theorem Sim.append {S : Sem V W E} {quiet : Kind → Prop} {fuel : ℕ} {a a' b b' : List Stmt} (h : Sim S quiet fuel a a') (h' : Sim S quiet fuel b b') :
    Sim S quiet fuel (a ++ b) (a' ++ b') := by
  intro env env' w ha hg
  rw [execBlock_append] at hg ⊢
  rw [execBlock_append]
  exact seq_rel hg (fun hg => h env env' w ha hg) h'

theorem sim_nil (S : Sem V W E) (quiet : Kind → Prop) (fuel : ℕ) : Sim S quiet fuel [] [] := fun _ _ _ ha _ => rel_same ha

/-- The header does not change. -/
def SameValue (S : Sem V W E) (e e' : Expr) : Prop := ∀ env env', Agree 0 env env' → eval S env e = eval S env' e'

theorem sim_cond {S : Sem V W E} {quiet : Kind → Prop} {fuel : ℕ} {t t' : Expr} {a a' b b' : List Stmt} (ht : SameValue S t t') (h : Sim S quiet fuel a a')
    (h' : Sim S quiet fuel b b') : Sim S quiet fuel [.cond t a b] [.cond t' a' b'] := by
  intro env env' w ha hg
  rw [execBlock_single] at hg ⊢
  rw [execBlock_single]
  simp only [exec] at hg ⊢
  refine truth_agree (ht env env' ha) ha hg fun v w1 hg => ?_
  cases v with
  | true => exact h env env' w1 ha hg
  | false => exact h' env env' w1 ha hg

theorem sim_loop {S : Sem V W E} {quiet : Kind → Prop} {fuel : ℕ} {t t' : Expr} {a a' : List Stmt} (ht : SameValue S t t') (h : Sim S quiet fuel a a') :
    Sim S quiet fuel [.loop t a] [.loop t' a'] := by
  have key : ∀ n env env' w, Agree 0 env env' → GoodRes S quiet (whileLoop S t (execBlock S fuel a) n env w) →
      Rel (whileLoop S t (execBlock S fuel a) n env w) (whileLoop S t' (execBlock S fuel a') n env' w) := by
    intro n
    induction n with
    | zero => intro env env' w ha hg; trivial
    | succ n ih =>
      intro env env' w ha hg
      simp only [whileLoop] at hg ⊢
      refine truth_agree (ht env env' ha) ha hg fun v w1 hg => ?_
      cases v with
      | true => exact after_rel hg (fun hg => h env env' w1 ha hg) ih
      | false => exact rel_same ha
  intro env env' w ha hg
  rw [execBlock_single] at hg ⊢
  rw [execBlock_single]
  simp only [exec] at hg ⊢
  exact key fuel env env' w ha hg

theorem sim_each {S : Sem V W E} {quiet : Kind → Prop} {fuel : ℕ} {x : String} {t t' : Expr} {a a' : List Stmt} (ht : SameValue S t t') (h : Sim S quiet fuel a a') :
    Sim S quiet fuel [.each x t a] [.each x t' a'] := by
  have key : ∀ it n env env' w, Agree 0 env env' → GoodRes S quiet (forLoop S x it (execBlock S fuel a) n env w) →
      Rel (forLoop S x it (execBlock S fuel a) n env w) (forLoop S x it (execBlock S fuel a') n env' w) := by
    intro it n
    induction n with
    | zero => intro env env' w ha hg; trivial
    | succ n ih =>
      intro env env' w ha hg
      simp only [forLoop] at hg ⊢
      generalize S.next it w = r at hg ⊢
      match r, hg with
      | (.error e, w1), hg => exact rel_same ha
      | (.ok none, w1), hg => exact rel_same ha
      | (.ok (some v), w1), hg => exact after_rel hg (fun hg => h _ _ w1 (ha.set x v) hg) ih
  intro env env' w ha hg
  rw [execBlock_single] at hg ⊢
  rw [execBlock_single]
  simp only [exec] at hg ⊢
  refine value_agree (ht env env' ha) ha hg fun v w1 hg => ?_
  generalize S.iter v w1 = r at hg ⊢
  match r, hg with
  | (.error e, w2), hg => exact rel_same ha
  | (.ok i, w2), hg => exact key i fuel env env' w2 ha hg

theorem sameValue_self {S : Sem V W E} {e : Expr} (hn : ∀ x ∈ names e, ¬ IsTmp x) : SameValue S e e := fun env env' ha => eval_agree S e env env' hn ha

/-! #### The passes -/

theorem mem_namesBlock_append {x : String} : ∀ {a b : List Stmt}, x ∈ namesBlock (a ++ b) ↔ x ∈ namesBlock a ∨ x ∈ namesBlock b
  | [], b => by simp [namesBlock]
  | s :: a, b => by simp [namesBlock, mem_namesBlock_append (a := a) (b := b), or_assoc]

theorem namesBlock_lines {x : String} : ∀ {l : List Small}, x ∈ namesBlock (l.map fun s => .line [s]) ↔ x ∈ l.flatMap namesSmall
  | [] => by simp [namesBlock]
  | s :: l => by
    simp only [List.map_cons, namesBlock, namesStmt, List.mem_append, List.flatMap_cons, List.flatMap_nil, List.append_nil]
    rw [namesBlock_lines]

mutual

theorem names_splitStmt {x : String} : ∀ s : Stmt, x ∈ namesBlock (splitStmt s) ↔ x ∈ namesStmt s
  | .line l => by simp only [splitStmt, namesStmt]; exact namesBlock_lines
  | .cond t a b => by simp only [splitStmt, namesStmt, namesBlock, List.mem_append, List.append_nil, names_splitBlock a, names_splitBlock b]
  | .loop t a => by simp only [splitStmt, namesStmt, namesBlock, List.mem_append, List.append_nil, names_splitBlock a]
  | .each y it a => by simp only [splitStmt, namesStmt, namesBlock, List.mem_append, List.append_nil, names_splitBlock a]

theorem names_splitBlock {x : String} : ∀ b : List Stmt, x ∈ namesBlock (splitBlock b) ↔ x ∈ namesBlock b
  | [] => by simp only [splitBlock]
  | s :: l => by simp only [splitBlock, namesBlock, mem_namesBlock_append, names_splitStmt s, names_splitBlock l, List.mem_append]

end

theorem names_load (t : Target) : names t.load = namesTarget t := by cases t <;> simp [Target.load, names, namesTarget]

theorem names_expandSmall {x : String} (s : Small) : x ∈ namesSmall (expandSmall s) ↔ x ∈ namesSmall s := by
  cases s with
  | aug o t v =>
    simp only [expandSmall, namesSmall, List.flatMap_cons, List.flatMap_nil, names, namesAll, names_load, List.mem_append, List.append_nil]
    exact ⟨fun h => h.elim Or.inl id, Or.inr⟩
  | _ => rfl

mutual

theorem names_expandStmt {x : String} : ∀ s : Stmt, x ∈ namesStmt (expandStmt s) ↔ x ∈ namesStmt s
  | .line l => by
    simp only [expandStmt, namesStmt, List.mem_flatMap, List.mem_map]
    constructor
    · rintro ⟨s, ⟨s', hs', rfl⟩, hx⟩
      exact ⟨s', hs', (names_expandSmall s').1 hx⟩
    · rintro ⟨s, hs, hx⟩
      exact ⟨_, ⟨s, hs, rfl⟩, (names_expandSmall s).2 hx⟩
  | .cond t a b => by simp only [expandStmt, namesStmt, List.mem_append, names_expandBlock a, names_expandBlock b]
  | .loop t a => by simp only [expandStmt, namesStmt, List.mem_append, names_expandBlock a]
  | .each y it a => by simp only [expandStmt, namesStmt, List.mem_append, List.mem_cons, names_expandBlock a]

theorem names_expandBlock {x : String} : ∀ b : List Stmt, x ∈ namesBlock (expandBlock b) ↔ x ∈ namesBlock b
  | [] => by simp only [expandBlock]
  | s :: l => by simp only [expandBlock, namesBlock, names_expandStmt s, names_expandBlock l, List.mem_append]

end

theorem namesTarget_mark (p : Kind → List Expr → Bool) (t : Target) : namesTarget (markTarget p t) = namesTarget t := by
  cases t <;> simp [markTarget, namesTarget, namesAll_mark]

theorem names_markSmall (p : Kind → List Expr → Bool) (s : Small) : namesSmall (markSmall p s) = namesSmall s := by
  cases s with
  | assign ts v => simp [markSmall, namesSmall, names_mark, namesTarget_mark, List.flatMap_map]
  | ret e => cases e <;> simp [markSmall, namesSmall, names_mark]
  | check t m => cases m <;> simp [markSmall, namesSmall, names_mark]
  | _ => simp [markSmall, namesSmall, names_mark, namesTarget_mark]

mutual

theorem names_markStmt (p : Kind → List Expr → Bool) : ∀ s : Stmt, namesStmt (markStmt p s) = namesStmt s
  | .line l => by simp [markStmt, namesStmt, List.flatMap_map, names_markSmall]
  | .cond t a b => by simp only [markStmt, namesStmt, names_mark, names_markBlock p a, names_markBlock p b]
  | .loop t a => by simp only [markStmt, namesStmt, names_mark, names_markBlock p a]
  | .each y it a => by simp only [markStmt, namesStmt, names_mark, names_markBlock p a]

theorem names_markBlock (p : Kind → List Expr → Bool) : ∀ b : List Stmt, namesBlock (markBlock p b) = namesBlock b
  | [] => by simp only [markBlock]
  | s :: l => by simp only [markBlock, namesBlock, names_markStmt p s, names_markBlock p l]

end

/-- A small statement that does not change. -/
theorem small_agree {S : Sem V W E} {quiet : Kind → Prop} (s : Small) (env env' : Env V) (w : W) (hn : ∀ x ∈ namesSmall s, ¬ IsTmp x) (ha : Agree 0 env env')
    (hg : GoodRes S quiet (execSmall S s env w)) : Rel (execSmall S s env w) (execSmall S s env' w) := by
  match s, hn, hg with
  | .assign ts v, hn, hg =>
    simp only [execSmall] at hg ⊢
    refine value_agree (eval_agree S v env env' (fun x hx => hn x (by simp [namesSmall, hx])) ha) ha hg fun u w1 hg => ?_
    exact assignTo_agree u ts env env' w1 (fun t ht x hx => hn x (by simp only [namesSmall, List.mem_append, List.mem_flatMap]; exact Or.inl ⟨t, ht, hx⟩)) ha hg
  | .aug o (.name x) v, hn, hg =>
    simp only [execSmall, augment] at hg ⊢
    have hx : ∀ y ∈ names (.name x), ¬ IsTmp y := fun y hy => hn y (by simp only [names] at hy; simp only [namesSmall, namesTarget, List.mem_append]; exact Or.inl hy)
    refine value_agree (eval_agree S _ env env' hx ha) ha hg fun a w1 hg => ?_
    refine value_agree (eval_agree S v env env' (fun x hx => hn x (by simp [namesSmall, hx])) ha) ha hg fun b w2 hg => ?_
    generalize S.aug o a b w2 = r at hg ⊢
    match r, hg with
    | (.error y, w3), hg => exact rel_same ha
    | (.ok u, w3), hg => exact rel_same (ha.set x u)
  | .aug o (.store k es) v, hn, hg =>
    simp only [execSmall, augment] at hg ⊢
    rw [← evalAll_agree S es env env' (fun x hx => hn x (by simp [namesSmall, namesTarget, hx])) ha]
    generalize evalAll S env es w = r at hg ⊢
    match r, hg with
    | (.error y, w1), hg => exact rel_same ha
    | (.ok vs, w1), hg =>
      simp only at hg ⊢
      generalize S.prim (.plain k) vs w1 = r at hg ⊢
      match r, hg with
      | (.error y, w2), hg => exact rel_same ha
      | (.ok a, w2), hg =>
        simp only at hg ⊢
        refine value_agree (eval_agree S v env env' (fun x hx => hn x (by simp [namesSmall, hx])) ha) ha hg fun b w3 hg => ?_
        generalize S.aug o a b w3 = r at hg ⊢
        match r, hg with
        | (.error y, w4), hg => exact rel_same ha
        | (.ok u, w4), hg =>
          simp only at hg ⊢
          generalize S.store k vs u w4 = r at hg ⊢
          match r, hg with
          | (.error y, w5), hg => exact rel_same ha
          | (.ok _, w5), hg => exact rel_same ha
  | .expr e, hn, hg =>
    simp only [execSmall] at hg ⊢
    exact value_agree (eval_agree S e env env' hn ha) ha hg fun u w1 hg => rel_same ha
  | .ret none, hn, hg => exact rel_same ha
  | .ret (some e), hn, hg =>
    simp only [execSmall] at hg ⊢
    exact value_agree (eval_agree S e env env' hn ha) ha hg fun u w1 hg => rel_same ha
  | .throw e, hn, hg =>
    simp only [execSmall] at hg ⊢
    exact value_agree (eval_agree S e env env' hn ha) ha hg fun u w1 hg => rel_same ha
  | .check t m, hn, hg =>
    simp only [execSmall] at hg ⊢
    refine truth_agree (eval_agree S t env env' (fun x hx => hn x (by simp [namesSmall, hx])) ha) ha hg fun b w1 hg => ?_
    cases b with
    | true => exact rel_same ha
    | false =>
      simp only [Bool.false_eq_true, if_false] at hg ⊢
      cases m with
      | none => exact rel_same ha
      | some m =>
        simp only at hg ⊢
        exact value_agree (eval_agree S m env env' (fun x hx => hn x (by simp [namesSmall, hx])) ha) ha hg fun u w1 hg => rel_same ha
  | .pass, hn, hg => exact rel_same ha
  | .brk, hn, hg => exact rel_same ha
  | .cont, hn, hg => exact rel_same ha

theorem sim_lines {S : Sem V W E} {quiet : Kind → Prop} {fuel : ℕ} : ∀ l : List Small, (∀ s ∈ l, ∀ x ∈ namesSmall s, ¬ IsTmp x) →
    Sim S quiet fuel [.line l] (l.map fun s => .line [s])
  | [], hn => by
    intro env env' w ha hg
    exact rel_same ha
  | s :: l, hn => by
    intro env env' w ha hg
    have ih := sim_lines (S := S) (quiet := quiet) (fuel := fuel) l fun s hs => hn s (by simp [hs])
    rw [execBlock_single] at hg ⊢
    simp only [exec, execLine] at hg ⊢
    rw [List.map_cons, execBlock]
    have h1 : ∀ env w, exec S fuel (.line [s]) env w = execSmall S s env w := by
      intro env w
      simp only [exec, execLine]
      generalize execSmall S s env w = r
      match r with
      | none => rfl
      | some (.next, env', w') => rfl
      | some (.brk, env', w') => rfl
      | some (.cont, env', w') => rfl
      | some (.ret v, env', w') => rfl
      | some (.exc x, env', w') => rfl
    rw [h1]
    refine seq_rel hg (fun hg => small_agree s env env' w (hn s (by simp)) ha hg) fun env env' w ha hg => ?_
    have := ih env env' w ha
    rw [execBlock_single] at this
    simp only [exec] at this
    exact this hg

mutual

theorem sim_splitStmt (S : Sem V W E) (quiet : Kind → Prop) (fuel : ℕ) : ∀ s : Stmt, (∀ x ∈ namesStmt s, ¬ IsTmp x) → Sim S quiet fuel [s] (splitStmt s)
  | .line l, hn => by
    simp only [splitStmt]
    exact sim_lines l fun s hs x hx => hn x (by simp only [namesStmt, List.mem_flatMap]; exact ⟨s, hs, hx⟩)
  | .cond t a b, hn => by
    simp only [splitStmt, namesStmt, List.mem_append] at hn ⊢
    exact sim_cond (sameValue_self fun x hx => hn x (Or.inl (Or.inl hx))) (sim_splitBlock S quiet fuel a fun x hx => hn x (Or.inl (Or.inr hx)))
      (sim_splitBlock S quiet fuel b fun x hx => hn x (Or.inr hx))
  | .loop t a, hn => by
    simp only [splitStmt, namesStmt, List.mem_append] at hn ⊢
    exact sim_loop (sameValue_self fun x hx => hn x (Or.inl hx)) (sim_splitBlock S quiet fuel a fun x hx => hn x (Or.inr hx))
  | .each y it a, hn => by
    simp only [splitStmt, namesStmt, List.mem_append, List.mem_cons] at hn ⊢
    exact sim_each (sameValue_self fun x hx => hn x (Or.inl (Or.inr hx))) (sim_splitBlock S quiet fuel a fun x hx => hn x (Or.inr hx))

theorem sim_splitBlock (S : Sem V W E) (quiet : Kind → Prop) (fuel : ℕ) : ∀ b : List Stmt, (∀ x ∈ namesBlock b, ¬ IsTmp x) → Sim S quiet fuel b (splitBlock b)
  | [], hn => sim_nil S quiet fuel
  | s :: l, hn => by
    simp only [splitBlock, namesBlock, List.mem_append] at hn ⊢
    exact (sim_splitStmt S quiet fuel s fun x hx => hn x (Or.inl hx)).append (sim_splitBlock S quiet fuel l fun x hx => hn x (Or.inr hx))

end

theorem line_single (S : Sem V W E) (fuel : ℕ) (s : Small) (env : Env V) (w : W) : execBlock S fuel [.line [s]] env w = execSmall S s env w := by
  rw [execBlock_single]
  simp only [exec, execLine]
  generalize execSmall S s env w = r
  match r with
  | none => rfl
  | some (.next, env', w') => rfl
  | some (.brk, env', w') => rfl
  | some (.cont, env', w') => rfl
  | some (.ret v, env', w') => rfl
  | some (.exc x, env', w') => rfl

theorem rel_refl (r : Res V W E) : Rel r r := by
  match r with
  | none => trivial
  | some (o, env, w) => exact rel_same (Agree.refl _ _)

mutual

theorem stays_none (p : Kind → List Expr → Bool) (quiet : Kind → Prop) : ∀ e : Expr, ¬ Moves p e → Settled p quiet e → ¬ Moves none' e ∧ Settled none' quiet e
  | .name x, _, _ => by simp [Moves, Settled]
  | .lit k, _, _ => by simp [Moves, Settled]
  | .op k l, h, hs => by
    simp only [Moves, not_or] at h
    simp only [Settled] at hs
    rcases hs with hs | hs
    · exact absurd hs h.1
    · have := staysAll_none p quiet l h.2 hs.2
      simp [Moves, Settled, this, hs.1]
  | .ctrl k fixed xs l, _, hs => by simp [Settled] at hs
  | .cand e, h, _ => by simp [Moves] at h

theorem staysAll_none (p : Kind → List Expr → Bool) (quiet : Kind → Prop) : ∀ l : List Expr, ¬ MovesAny p l → SettledAll p quiet l →
    ¬ MovesAny none' l ∧ SettledAll none' quiet l
  | [], _, _ => by simp [MovesAny, SettledAll]
  | e :: l, h, hs => by
    simp only [MovesAny, not_or] at h
    simp only [SettledAll] at hs
    have h1 := stays_none p quiet e h.1 hs.1
    have h2 := staysAll_none p quiet l h.2 hs.2
    simp [MovesAny, SettledAll, h1, h2]

end

/-- Operands that can be evaluated again. -/
theorem evalAll_again {S : Sem V W E} {quiet : Kind → Prop} {Later : W → W → Prop} (hs : Stable S quiet Later) {l : List Expr} {env : Env V} {w : W}
    (hn : ∀ x ∈ namesAll l, ¬ IsTmp x) (hm : ¬ MovesAny none' l) (hq : SettledAll none' quiet l) (hg : Good S quiet (evalAll S env l w)) :
    ∃ vs, evalAll S env l w = (.ok vs, w) ∧ ∀ w', Later w w' → evalAll S env l w' = (.ok vs, w') := by
  obtain ⟨-, h⟩ := isoAll_ok hs l 0 env env w hn (Agree.refl _ _) (calmAll_of_stays _ _ l hm) hg
  rw [isoAll_stays l 0 hm] at h
  simp only [runIns] at h
  obtain ⟨hw, vs, hv, h⟩ := h.2.2 hq
  exact ⟨vs, Prod.ext hv hw.symm, fun w' hw' => h env (Agree.refl _ _) w' hw'⟩

theorem expandSmall_ok {S : Sem V W E} {quiet : Kind → Prop} {Later : W → W → Prop} (hs : Stable S quiet Later) (hre : Rebinds S) (p : Kind → List Expr → Bool)
    (s : Small) (env : Env V) (w : W) (hn : ∀ x ∈ namesSmall s, ¬ IsTmp x) (hc : CalmSmall p quiet s) (hg : GoodRes S quiet (execSmall S s env w)) :
    execSmall S (expandSmall s) env w = execSmall S s env w := by
  match s, hn, hc, hg with
  | .aug o (.name x) v, hn, hc, hg =>
    have key : ∀ r : Except E V × W, eval S env (.name x) w = r → execSmall S (expandSmall (.aug o (.name x) v)) env w = execSmall S (.aug o (.name x) v) env w := by
     intro r hr
     simp only [expandSmall, execSmall, augment, withValue, Target.load, eval, evalAll] at hr ⊢
     rw [hr]
     match r with
     | (.error y, w0) => rfl
     | (.ok a, w0) =>
      simp only
      generalize eval S env v w0 = r
      match r with
      | (.error y, w1) => rfl
      | (.ok b, w1) =>
        simp only
        rw [show S.aug o a b w1 = _ from hre o a b w1]
        generalize S.prim (.binary o) [a, b] w1 = r
        match r with
        | (.error y, w2) => rfl
        | (.ok u, w2) => rfl
    exact key _ rfl
  | .aug o (.store k es) v, hn, hc, hg =>
    simp only [CalmSmall, AugCalm] at hc
    obtain ⟨⟨hm, hq, _, _⟩, _⟩ := hc
    obtain ⟨hm', hq'⟩ := staysAll_none p quiet es hm hq
    simp only [execSmall, augment] at hg ⊢
    have hge : Good S quiet (evalAll S env es w) := by
      generalize evalAll S env es w = r at hg
      match r, hg with
      | (.error y, w1), hg => exact Or.inr (good_exc hg)
      | (.ok vs, w1), hg => exact Or.inl ⟨vs, rfl⟩
    obtain ⟨vs, h1, h2⟩ := evalAll_again hs (fun x hx => hn x (by simp [namesSmall, namesTarget, hx])) hm' hq' hge
    simp only [expandSmall, withValue, Target.load, eval, evalAll, h1]
    have hl1 := hs.prim (.plain k) vs w
    generalize S.prim (.plain k) vs w = r at hl1 ⊢
    match r, hl1 with
    | (.error y, w1), hl1 => rfl
    | (.ok a, w1), hl1 =>
      simp only
      have hl2 := eval_later hs v env w1
      generalize eval S env v w1 = r at hl2 ⊢
      match r, hl2 with
      | (.error y, w2), hl2 => rfl
      | (.ok b, w2), hl2 =>
        simp only
        rw [show S.aug o a b w2 = _ from hre o a b w2]
        have hl3 := hs.prim (.binary o) [a, b] w2
        generalize S.prim (.binary o) [a, b] w2 = r at hl3 ⊢
        match r, hl3 with
        | (.error y, w3), hl3 => rfl
        | (.ok u, w3), hl3 =>
          simp only [assignTo]
          rw [h2 w3 (hs.trans _ _ _ (hs.trans _ _ _ hl1 hl2) hl3)]
  | .assign ts v, hn, hc, hg => rfl
  | .expr e, hn, hc, hg => rfl
  | .ret e, hn, hc, hg => rfl
  | .throw e, hn, hc, hg => rfl
  | .check t m, hn, hc, hg => rfl
  | .pass, hn, hc, hg => rfl
  | .brk, hn, hc, hg => rfl
  | .cont, hn, hc, hg => rfl

theorem sim_expandLine {S : Sem V W E} {quiet : Kind → Prop} {Later : W → W → Prop} (hs : Stable S quiet Later) (hre : Rebinds S) (p : Kind → List Expr → Bool)
    (fuel : ℕ) : ∀ l : List Small, (∀ s ∈ l, ∀ x ∈ namesSmall s, ¬ IsTmp x) → (∀ s ∈ l, CalmSmall p quiet s) →
    ∀ env env' w, Agree 0 env env' → GoodRes S quiet (execLine S l env w) → Rel (execLine S l env w) (execLine S (l.map expandSmall) env' w)
  | [], hn, hc => fun env env' w ha hg => rel_same ha
  | s :: l, hn, hc => by
    intro env env' w ha hg
    simp only [execLine, List.map_cons] at hg ⊢
    refine seq_rel hg (fun hg => ?_) fun env env' w ha hg => sim_expandLine hs hre p fuel l (fun s hs => hn s (by simp [hs])) (fun s hs => hc s (by simp [hs])) env env' w ha hg
    have he := expandSmall_ok hs hre p s env w (hn s (by simp)) (hc s (by simp)) hg
    rw [← he] at hg ⊢
    exact small_agree _ env env' w (fun x hx => hn s (by simp) x ((names_expandSmall s).1 hx)) ha hg

mutual

theorem sim_expandStmt {S : Sem V W E} {quiet : Kind → Prop} {Later : W → W → Prop} (hs : Stable S quiet Later) (hre : Rebinds S) (p : Kind → List Expr → Bool)
    (fuel : ℕ) : ∀ s : Stmt, (∀ x ∈ namesStmt s, ¬ IsTmp x) → CalmStmt p quiet s → Sim S quiet fuel [s] [expandStmt s]
  | .line l, hn, hc => by
    intro env env' w ha hg
    simp only [expandStmt, execBlock_single, exec] at hg ⊢
    exact sim_expandLine hs hre p fuel l (fun s hs x hx => hn x (by simp only [namesStmt, List.mem_flatMap]; exact ⟨s, hs, hx⟩))
      (by simpa only [CalmStmt] using hc) env env' w ha hg
  | .cond t a b, hn, hc => by
    simp only [expandStmt, namesStmt, List.mem_append, CalmStmt] at hn hc ⊢
    exact sim_cond (sameValue_self fun x hx => hn x (Or.inl (Or.inl hx))) (sim_expandBlock hs hre p fuel a (fun x hx => hn x (Or.inl (Or.inr hx))) hc.1)
      (sim_expandBlock hs hre p fuel b (fun x hx => hn x (Or.inr hx)) hc.2)
  | .loop t a, hn, hc => by
    simp only [expandStmt, namesStmt, List.mem_append, CalmStmt] at hn hc ⊢
    exact sim_loop (sameValue_self fun x hx => hn x (Or.inl hx)) (sim_expandBlock hs hre p fuel a (fun x hx => hn x (Or.inr hx)) hc)
  | .each y it a, hn, hc => by
    simp only [expandStmt, namesStmt, List.mem_append, List.mem_cons, CalmStmt] at hn hc ⊢
    exact sim_each (sameValue_self fun x hx => hn x (Or.inl (Or.inr hx))) (sim_expandBlock hs hre p fuel a (fun x hx => hn x (Or.inr hx)) hc)

theorem sim_expandBlock {S : Sem V W E} {quiet : Kind → Prop} {Later : W → W → Prop} (hs : Stable S quiet Later) (hre : Rebinds S) (p : Kind → List Expr → Bool)
    (fuel : ℕ) : ∀ b : List Stmt, (∀ x ∈ namesBlock b, ¬ IsTmp x) → CalmBlock p quiet b → Sim S quiet fuel b (expandBlock b)
  | [], hn, hc => sim_nil S quiet fuel
  | s :: l, hn, hc => by
    simp only [expandBlock, namesBlock, List.mem_append, CalmBlock] at hn hc ⊢
    exact (sim_expandStmt hs hre p fuel s (fun x hx => hn x (Or.inl hx)) hc.1).append (sim_expandBlock hs hre p fuel l (fun x hx => hn x (Or.inr hx)) hc.2)

end

theorem assignTo_mark (S : Sem V W E) (p : Kind → List Expr → Bool) (v : V) : ∀ (ts : List Target) (env : Env V) (w : W),
    assignTo S v (ts.map (markTarget p)) env w = assignTo S v ts env w
  | [], env, w => rfl
  | .name x :: ts, env, w => by
    simp only [List.map_cons, markTarget, assignTo]
    exact assignTo_mark S p v ts _ w
  | .store k es :: ts, env, w => by
    simp only [List.map_cons, markTarget, assignTo, evalAll_mark S p es env]
    split
    · rfl
    · split
      · rfl
      · exact assignTo_mark S p v ts _ _

theorem execSmall_mark (S : Sem V W E) (p : Kind → List Expr → Bool) (s : Small) (env : Env V) (w : W) : execSmall S (markSmall p s) env w = execSmall S s env w := by
  cases s with
  | assign ts v => simp only [markSmall, execSmall, withValue, eval_mark S p v env, assignTo_mark S p]
  | aug o t v =>
    cases t with
    | name x => simp only [markSmall, markTarget, execSmall, augment, withValue, eval_mark S p v env]
    | store k es => simp only [markSmall, markTarget, execSmall, augment, withValue, eval_mark S p v env, evalAll_mark S p es env]
  | expr e => simp only [markSmall, execSmall, withValue, eval_mark S p e env]
  | ret e => cases e <;> simp only [markSmall, Option.map, execSmall, withValue, eval_mark S p]
  | throw e => simp only [markSmall, execSmall, withValue, eval_mark S p e env]
  | check t m => cases m <;> simp only [markSmall, Option.map, execSmall, withTruth, withValue, eval_mark S p]
  | pass => rfl
  | brk => rfl
  | cont => rfl

theorem execLine_mark (S : Sem V W E) (p : Kind → List Expr → Bool) : ∀ l : List Small, execLine S (l.map (markSmall p)) = execLine S l
  | [] => rfl
  | s :: l => by
    funext env w
    simp only [List.map_cons, execLine, execSmall_mark S p s env w, execLine_mark S p l]

theorem sameValue_mark {S : Sem V W E} (p : Kind → List Expr → Bool) {e : Expr} (hn : ∀ x ∈ names e, ¬ IsTmp x) : SameValue S e (mark p e) := fun env env' ha => by
  rw [eval_mark]
  exact eval_agree S e env env' hn ha

theorem line_agree {S : Sem V W E} {quiet : Kind → Prop} : ∀ l : List Small, (∀ s ∈ l, ∀ x ∈ namesSmall s, ¬ IsTmp x) →
    ∀ env env' w, Agree 0 env env' → GoodRes S quiet (execLine S l env w) → Rel (execLine S l env w) (execLine S l env' w)
  | [], hn => fun env env' w ha hg => rel_same ha
  | s :: l, hn => fun env env' w ha hg => by
    simp only [execLine] at hg ⊢
    exact seq_rel hg (fun hg => small_agree s env env' w (hn s (by simp)) ha hg) (line_agree l fun s hs => hn s (by simp [hs]))

mutual

theorem sim_markStmt (S : Sem V W E) (quiet : Kind → Prop) (p : Kind → List Expr → Bool) (fuel : ℕ) : ∀ s : Stmt, (∀ x ∈ namesStmt s, ¬ IsTmp x) →
    Sim S quiet fuel [s] [markStmt p s]
  | .line l, hn => by
    intro env env' w ha hg
    simp only [markStmt, execBlock_single, exec, execLine_mark S p l] at hg ⊢
    exact line_agree l (fun s hs x hx => hn x (by simp only [namesStmt, List.mem_flatMap]; exact ⟨s, hs, hx⟩)) env env' w ha hg
  | .cond t a b, hn => by
    simp only [markStmt, namesStmt, List.mem_append] at hn ⊢
    exact sim_cond (sameValue_mark p fun x hx => hn x (Or.inl (Or.inl hx))) (sim_markBlock S quiet p fuel a fun x hx => hn x (Or.inl (Or.inr hx)))
      (sim_markBlock S quiet p fuel b fun x hx => hn x (Or.inr hx))
  | .loop t a, hn => by
    simp only [markStmt, namesStmt, List.mem_append] at hn ⊢
    exact sim_loop (sameValue_mark p fun x hx => hn x (Or.inl hx)) (sim_markBlock S quiet p fuel a fun x hx => hn x (Or.inr hx))
  | .each y it a, hn => by
    simp only [markStmt, namesStmt, List.mem_append, List.mem_cons] at hn ⊢
    exact sim_each (sameValue_mark p fun x hx => hn x (Or.inl (Or.inr hx))) (sim_markBlock S quiet p fuel a fun x hx => hn x (Or.inr hx))

theorem sim_markBlock (S : Sem V W E) (quiet : Kind → Prop) (p : Kind → List Expr → Bool) (fuel : ℕ) : ∀ b : List Stmt, (∀ x ∈ namesBlock b, ¬ IsTmp x) →
    Sim S quiet fuel b (markBlock p b)
  | [], hn => sim_nil S quiet fuel
  | s :: l, hn => by
    simp only [markBlock, namesBlock, List.mem_append] at hn ⊢
    exact (sim_markStmt S quiet p fuel s fun x hx => hn x (Or.inl hx)).append (sim_markBlock S quiet p fuel l fun x hx => hn x (Or.inr hx))

end

mutual

/-- What the last pass works on. -/
def ReadyStmt (quiet : Kind → Prop) : Stmt → Prop
  | .line l => ∃ s, l = [s] ∧ CalmSmall none' quiet s ∧ ∀ o t v, s ≠ .aug o t v
  | .cond _ a b => ReadyBlock quiet a ∧ ReadyBlock quiet b
  | .loop _ a => ReadyBlock quiet a
  | .each _ _ a => ReadyBlock quiet a

def ReadyBlock (quiet : Kind → Prop) : List Stmt → Prop
  | [] => True
  | s :: l => ReadyStmt quiet s ∧ ReadyBlock quiet l

end

mutual

theorem sim_isoStmt {S : Sem V W E} {quiet : Kind → Prop} {Later : W → W → Prop} (hs : Stable S quiet Later) (fuel : ℕ) : ∀ (s : Stmt) (n : ℕ),
    (∀ x ∈ namesStmt s, ¬ IsTmp x) → ReadyStmt quiet s → Sim S quiet fuel [s] (isoStmt s n).1
  | .line l, n, hn, hr => by
    simp only [ReadyStmt] at hr
    obtain ⟨s, rfl, hc, haug⟩ := hr
    intro env env' w ha hg
    simp only [isoStmt, isoLine, List.append_nil]
    rw [exec_ins]
    rw [line_single] at hg ⊢
    have := isoSmall_ok hs s n env env' w (fun x hx => hn x (by simpa [namesStmt] using hx)) ha hc haug hg
    have he : (execBlock S fuel [.line [(isoSmall s n).1]]) = execSmall S (isoSmall s n).1 := by
      funext env w
      exact line_single S fuel _ env w
    rw [he]
    exact this
  | .cond t a b, n, hn, hr => by
    simp only [ReadyStmt] at hr
    simp only [isoStmt, namesStmt, List.mem_append] at hn ⊢
    exact sim_cond (sameValue_self fun x hx => hn x (Or.inl (Or.inl hx))) (sim_isoBlock hs fuel a _ (fun x hx => hn x (Or.inl (Or.inr hx))) hr.1)
      (sim_isoBlock hs fuel b _ (fun x hx => hn x (Or.inr hx)) hr.2)
  | .loop t a, n, hn, hr => by
    simp only [ReadyStmt] at hr
    simp only [isoStmt, namesStmt, List.mem_append] at hn ⊢
    exact sim_loop (sameValue_self fun x hx => hn x (Or.inl hx)) (sim_isoBlock hs fuel a _ (fun x hx => hn x (Or.inr hx)) hr)
  | .each y it a, n, hn, hr => by
    simp only [ReadyStmt] at hr
    simp only [isoStmt, namesStmt, List.mem_append, List.mem_cons] at hn ⊢
    exact sim_each (sameValue_self fun x hx => hn x (Or.inl (Or.inr hx))) (sim_isoBlock hs fuel a _ (fun x hx => hn x (Or.inr hx)) hr)

theorem sim_isoBlock {S : Sem V W E} {quiet : Kind → Prop} {Later : W → W → Prop} (hs : Stable S quiet Later) (fuel : ℕ) : ∀ (b : List Stmt) (n : ℕ),
    (∀ x ∈ namesBlock b, ¬ IsTmp x) → ReadyBlock quiet b → Sim S quiet fuel b (isoBlock b n).1
  | [], n, hn, hr => by
    simp only [isoBlock]
    exact sim_nil S quiet fuel
  | s :: l, n, hn, hr => by
    simp only [ReadyBlock] at hr
    simp only [isoBlock, namesBlock, List.mem_append] at hn ⊢
    exact (sim_isoStmt hs fuel s n (fun x hx => hn x (Or.inl hx)) hr.1).append (sim_isoBlock hs fuel l _ (fun x hx => hn x (Or.inr hx)) hr.2)

end

theorem calmSmall_expand {p : Kind → List Expr → Bool} {quiet : Kind → Prop} {s : Small} (h : CalmSmall p quiet s) : CalmSmall p quiet (expandSmall s) := by
  match s, h with
  | .aug o (.name x) v, h =>
    simp only [CalmSmall] at h
    simp [expandSmall, CalmSmall, TargetStays, Target.load, Calm, CalmAll, Settled, h.2, MovesAny]
  | .aug o (.store k es) v, h =>
    simp only [CalmSmall, AugCalm] at h
    obtain ⟨⟨h1, h2, h3, h4⟩, h5⟩ := h
    simp only [expandSmall, CalmSmall, TargetStays, Target.load, Calm, CalmAll, MovesAny, or_false, List.mem_singleton, forall_eq, Settled, and_true]
    exact ⟨h1, calmAll_of_stays _ _ es h1, fun hm => Or.inr ⟨h4 hm, h2⟩, h5, nofun⟩
  | .assign ts v, h => exact h
  | .expr e, h => exact h
  | .ret e, h => exact h
  | .throw e, h => exact h
  | .check t m, h => exact h
  | .pass, h => exact h
  | .brk, h => exact h
  | .cont, h => exact h

theorem calmSmall_mark {p : Kind → List Expr → Bool} {quiet : Kind → Prop} {s : Small} (h : CalmSmall p quiet s) (haug : ∀ o t v, s ≠ .aug o t v) :
    CalmSmall none' quiet (markSmall p s) ∧ ∀ o t v, markSmall p s ≠ .aug o t v := by
  match s, h, haug with
  | .aug o t v, h, haug => exact absurd rfl (haug o t v)
  | .assign ts v, h, haug =>
    simp only [markSmall, CalmSmall, calm_mark] at h ⊢
    refine ⟨⟨fun t ht => ?_, h.2⟩, nofun⟩
    obtain ⟨t, ht', rfl⟩ := List.mem_map.1 ht
    have := h.1 t ht'
    cases t with
    | name x => trivial
    | store k es =>
      simp only [markTarget, TargetStays, movesAny_mark] at this ⊢
      exact this
  | .expr e, h, haug => exact ⟨by simpa only [markSmall, CalmSmall, calm_mark] using h, nofun⟩
  | .ret e, h, haug =>
    cases e with
    | none => exact ⟨nofun, nofun⟩
    | some e =>
      refine ⟨?_, nofun⟩
      intro e' he'
      simp only [Option.map_some, Option.mem_def, Option.some.injEq] at he'
      subst he'
      exact (calm_mark p quiet e).2 (h e rfl)
  | .throw e, h, haug => exact ⟨by simpa only [markSmall, CalmSmall, calm_mark] using h, nofun⟩
  | .check t m, h, haug =>
    simp only [markSmall, CalmSmall, calm_mark] at h ⊢
    refine ⟨⟨h.1, fun m' hm' => ?_⟩, nofun⟩
    cases m with
    | none => simp at hm'
    | some m =>
      simp only [Option.map_some, Option.mem_def, Option.some.injEq] at hm'
      subst hm'
      rw [moves_mark]
      exact h.2 m rfl
  | .pass, h, haug => exact ⟨trivial, nofun⟩
  | .brk, h, haug => exact ⟨trivial, nofun⟩
  | .cont, h, haug => exact ⟨trivial, nofun⟩

theorem expandSmall_noAug (s : Small) : ∀ o t v, expandSmall s ≠ .aug o t v := by cases s <;> nofun

theorem expandBlock_append : ∀ a b : List Stmt, expandBlock (a ++ b) = expandBlock a ++ expandBlock b
  | [], b => by simp [expandBlock]
  | s :: a, b => by simp [expandBlock, expandBlock_append a b]

theorem markBlock_append (p : Kind → List Expr → Bool) : ∀ a b : List Stmt, markBlock p (a ++ b) = markBlock p a ++ markBlock p b
  | [], b => by simp [markBlock]
  | s :: a, b => by simp [markBlock, markBlock_append p a b]

theorem readyBlock_append (quiet : Kind → Prop) : ∀ {a b : List Stmt}, ReadyBlock quiet a → ReadyBlock quiet b → ReadyBlock quiet (a ++ b)
  | [], b, _, h => h
  | s :: a, b, h, h' => by
    simp only [ReadyBlock, List.cons_append] at h ⊢
    exact ⟨h.1, readyBlock_append quiet h.2 h'⟩

theorem ready_lines {p : Kind → List Expr → Bool} {quiet : Kind → Prop} : ∀ {l : List Small}, (∀ s ∈ l, CalmSmall p quiet s) →
    ReadyBlock quiet (markBlock p (expandBlock (l.map fun s => .line [s])))
  | [], h => by simp [expandBlock, markBlock, ReadyBlock]
  | s :: l, h => by
    simp only [List.map_cons, expandBlock, expandStmt, List.map_nil, markBlock, markStmt, ReadyBlock, ReadyStmt]
    exact ⟨⟨_, rfl, calmSmall_mark (calmSmall_expand (h s (by simp))) (expandSmall_noAug s)⟩, ready_lines fun s hs => h s (by simp [hs])⟩

mutual

theorem ready_stmt (p : Kind → List Expr → Bool) (quiet : Kind → Prop) : ∀ s : Stmt, CalmStmt p quiet s → ReadyBlock quiet (markBlock p (expandBlock (splitStmt s)))
  | .line l, h => by
    simp only [CalmStmt] at h
    simp only [splitStmt]
    exact ready_lines h
  | .cond t a b, h => by
    simp only [CalmStmt] at h
    simp only [splitStmt, expandBlock, expandStmt, markBlock, markStmt, ReadyBlock, ReadyStmt, and_true]
    exact ⟨ready_block p quiet a h.1, ready_block p quiet b h.2⟩
  | .loop t a, h => by
    simp only [CalmStmt] at h
    simp only [splitStmt, expandBlock, expandStmt, markBlock, markStmt, ReadyBlock, ReadyStmt, and_true]
    exact ready_block p quiet a h
  | .each x it a, h => by
    simp only [CalmStmt] at h
    simp only [splitStmt, expandBlock, expandStmt, markBlock, markStmt, ReadyBlock, ReadyStmt, and_true]
    exact ready_block p quiet a h

theorem ready_block (p : Kind → List Expr → Bool) (quiet : Kind → Prop) : ∀ b : List Stmt, CalmBlock p quiet b → ReadyBlock quiet (markBlock p (expandBlock (splitBlock b)))
  | [], h => by simp [splitBlock, expandBlock, markBlock, ReadyBlock]
  | s :: l, h => by
    simp only [CalmBlock] at h
    simp only [splitBlock, expandBlock_append, markBlock_append]
    exact readyBlock_append quiet (ready_stmt p quiet s h.1) (ready_block p quiet l h.2)

end

theorem calmBlock_append {p : Kind → List Expr → Bool} {quiet : Kind → Prop} : ∀ {a b : List Stmt}, CalmBlock p quiet a → CalmBlock p quiet b → CalmBlock p quiet (a ++ b)
  | [], b, _, h => h
  | s :: a, b, h, h' => by
    simp only [CalmBlock, List.cons_append] at h ⊢
    exact ⟨h.1, calmBlock_append h.2 h'⟩

theorem calm_lines {p : Kind → List Expr → Bool} {quiet : Kind → Prop} : ∀ {l : List Small}, (∀ s ∈ l, CalmSmall p quiet s) →
    CalmBlock p quiet (l.map fun s => .line [s])
  | [], h => by simp [CalmBlock]
  | s :: l, h => by
    simp only [List.map_cons, CalmBlock, CalmStmt, List.mem_singleton, forall_eq]
    exact ⟨h s (by simp), calm_lines fun s hs => h s (by simp [hs])⟩

mutual

theorem calm_splitStmt (p : Kind → List Expr → Bool) (quiet : Kind → Prop) : ∀ s : Stmt, CalmStmt p quiet s → CalmBlock p quiet (splitStmt s)
  | .line l, h => by
    simp only [CalmStmt] at h
    simp only [splitStmt]
    exact calm_lines h
  | .cond t a b, h => by
    simp only [CalmStmt, splitStmt, CalmBlock, and_true] at h ⊢
    exact ⟨calm_splitBlock p quiet a h.1, calm_splitBlock p quiet b h.2⟩
  | .loop t a, h => by
    simp only [CalmStmt, splitStmt, CalmBlock, and_true] at h ⊢
    exact calm_splitBlock p quiet a h
  | .each x it a, h => by
    simp only [CalmStmt, splitStmt, CalmBlock, and_true] at h ⊢
    exact calm_splitBlock p quiet a h

theorem calm_splitBlock (p : Kind → List Expr → Bool) (quiet : Kind → Prop) : ∀ b : List Stmt, CalmBlock p quiet b → CalmBlock p quiet (splitBlock b)
  | [], h => by simp [splitBlock, CalmBlock]
  | s :: l, h => by
    simp only [CalmBlock, splitBlock] at h ⊢
    exact calmBlock_append (calm_splitStmt p quiet s h.1) (calm_splitBlock p quiet l h.2)

end

/-! ### Properties -/

theorem preprocess_sim {S : Sem V W E} {quiet : Kind → Prop} {Later : W → W → Prop} (hs : Stable S quiet Later) (hre : Rebinds S) (p : Kind → List Expr → Bool)
    (b : List Stmt) (hn : ∀ x ∈ namesBlock b, ¬ IsTmp x) (hc : CalmBlock p quiet b) (fuel : ℕ) : Sim S quiet fuel b (preprocess p b) := by
  have n1 : ∀ x ∈ namesBlock (splitBlock b), ¬ IsTmp x := fun x hx => hn x ((names_splitBlock b).1 hx)
  have n2 : ∀ x ∈ namesBlock (expandBlock (splitBlock b)), ¬ IsTmp x := fun x hx => n1 x ((names_expandBlock _).1 hx)
  have n3 : ∀ x ∈ namesBlock (markBlock p (expandBlock (splitBlock b))), ¬ IsTmp x := fun x hx => n2 x (by rw [names_markBlock] at hx; exact hx)
  have h1 := sim_splitBlock S quiet fuel b hn
  have h2 := sim_expandBlock hs hre p fuel (splitBlock b) n1 (calm_splitBlock p quiet b hc)
  have h3 := sim_markBlock S quiet p fuel (expandBlock (splitBlock b)) n2
  have h4 := sim_isoBlock hs fuel _ 1 n3 (ready_block p quiet b hc)
  exact ((h1.trans h2).trans h3).trans h4

/-- **C85 (partial).** The preprocessed function does what the function does. For every choice of candidates, all operations and worlds, a run of the function
that ends without an exception has a run of the preprocessed function that ends in the same way with the same return value, leaves the same world, and leaves the
same in every variable of the function.

Missing: what is read before a candidate and stays must not change (`Calm`), no candidates in `and`, `or`, lambdas, targets and messages of assertions, augmented
assignments that change a value in place (`Rebinds`), and functions that use the names of temporaries. -/
theorem preprocess_keeps_partial (S : Sem V W E) (quiet : Kind → Prop) (Later : W → W → Prop) (hs : Stable S quiet Later) (hre : Rebinds S)
    (p : Kind → List Expr → Bool) (b : List Stmt) (hn : ∀ x ∈ namesBlock b, ¬ IsTmp x) (hc : CalmBlock p quiet b) (fuel : ℕ) (env : Env V) (w : W)
    (o : Out V E) (env1 : Env V) (w1 : W) (h : execBlock S fuel b env w = some (o, env1, w1)) (ho : ∀ x, o ≠ .exc x) :
    ∃ env1', execBlock S fuel (preprocess p b) env w = some (o, env1', w1) ∧ ∀ x, ¬ IsTmp x → env1' x = env1 x := by
  have := preprocess_sim hs hre p b hn hc fuel env env w (Agree.refl _ _) (Or.inl ⟨o, env1, w1, h, ho⟩)
  rw [h] at this
  match hr : execBlock S fuel (preprocess p b) env w, this with
  | some (o', env', w'), this =>
    obtain ⟨rfl, rfl, ha⟩ := this
    exact ⟨env', rfl, fun x hx => (ha x fun i _ hi => hx ⟨i, hi⟩).symm⟩

/-- **C85 (partial).** Runs that end with an exception, too, if reading what stays does not raise: the same exception, after the same effects. A loop goes round
equally often.

Missing: as for `preprocess_keeps_partial`, and what is read and stays must not raise. -/
theorem preprocess_raises_partial (S : Sem V W E) (quiet : Kind → Prop) (Later : W → W → Prop) (hs : Stable S quiet Later) (hre : Rebinds S)
    (hnr : NeverRaises S quiet) (p : Kind → List Expr → Bool) (b : List Stmt) (hn : ∀ x ∈ namesBlock b, ¬ IsTmp x) (hc : CalmBlock p quiet b) (fuel : ℕ)
    (env : Env V) (w : W) :
    (∀ o env1 w1, execBlock S fuel b env w = some (o, env1, w1) →
      ∃ env1', execBlock S fuel (preprocess p b) env w = some (o, env1', w1) ∧ ∀ x, ¬ IsTmp x → env1' x = env1 x) ∧
    (execBlock S fuel b env w = none → execBlock S fuel (preprocess p b) env w = none) := by
  have := preprocess_sim hs hre p b hn hc fuel env env w (Agree.refl _ _) (Or.inr hnr)
  constructor
  · intro o env1 w1 h
    rw [h] at this
    match hr : execBlock S fuel (preprocess p b) env w, this with
    | some (o', env', w'), this =>
      obtain ⟨rfl, rfl, ha⟩ := this
      exact ⟨env', rfl, fun x hx => (ha x fun i _ hi => hx ⟨i, hi⟩).symm⟩
  · intro h
    rw [h] at this
    match hr : execBlock S fuel (preprocess p b) env w, this with
    | none, _ => rfl

end FF.Py
