import Verif.Runtime.Scope

/-!
# Global flags

Models `/repo/src/fastforward/flags.py`.
-/

namespace FF.Flags

open FF.Scope

/-- The flags created at the end of the file (`flags.py:83-105`). -/
inductive Flag where
  | strictQuantization
  | exportMode
  | compiledQuantFuncs
  | sdpaTorchFallbackAllowed
  deriving DecidableEq, Repr

/-- `_FLAGS` (`flags.py:25`). -/
abbrev FlagState := Flag → Bool

/-- Initial values (`flags.py:83, 89, 95, 101`). -/
def init : FlagState
  | .strictQuantization => true
  | _ => false

/-- `_setter` (34-35). -/
def set (s : FlagState) (f : Flag) (v : Bool) : FlagState := fun g => if g = f then v else s g

/-- The `context` class (40-49): construction remembers the current value and sets the new one, exit sets the remembered value. A
block names the flag and the value; the object remembers the flag and the old value. -/
def managers : Managers (Flag × Bool) Flag FlagState (Flag × Bool) Bool where
  enter b s := some (set s b.1 b.2, (b.1, s b.1))
  exit k s := set s k.1 k.2
  observe f s := s f

/-! ### Programs that also set flags without a block -/

/-- As `Prog`, with the plain call of a setter, `set_strict_quantization(v)` (51-52), whose returned context manager is dropped. -/
inductive FProg where
  | done
  | raise
  | set (f : Flag) (v : Bool) (rest : FProg)
  | get (f : Flag) (rest : FProg)
  | block (f : Flag) (v : Bool) (body rest : FProg)

def FProg.exec : FProg → FlagState → FlagState × Bool × List Bool
  | .done, s => (s, false, [])
  | .raise, s => (s, true, [])
  | .set f v rest, s => rest.exec (FF.Flags.set s f v)
  | .get f rest, s => let r := rest.exec s; (r.1, r.2.1, s f :: r.2.2)
  | .block f v body rest, s =>
    let r := body.exec (FF.Flags.set s f v)
    let s3 := FF.Flags.set r.1 f (s f)
    if r.2.1 then (s3, true, r.2.2)
    else
      let r' := rest.exec s3
      (r'.1, r'.2.1, r.2.2 ++ r'.2.2)

/-! ### Properties -/

/-- **C30.** Every program using flag contexts, in any nesting and with exceptions anywhere, observes the values lexical scoping gives:
the setting of the innermost enclosing block of a flag, and the outer value where there is none; and it leaves every flag as it was. -/
theorem flags_are_scoped (p : Prog (Flag × Bool) Flag) (s : FlagState) :
    (exec managers p s).2 = lexical (fun b e => some fun g => if g = b.1 then b.2 else e g) (fun f e => e f) p s ∧
    (exec managers p s).1 = s := by
  have := exec_scoped managers (fun b e => some fun g => if g = b.1 then b.2 else e g) (fun f e => e f) (fun s e => s = e)
    (fun a b => b = a) (fun _ => rfl) (fun a b c h1 h2 => h2.trans h1) (by rintro s s' e rfl rfl; rfl) (by rintro s e a rfl; rfl)
    (fun _ _ _ _ => rfl)
    (by intro s e b _ h; simp [managers] at h)
    (by
      rintro s e b s1 k rfl h
      simp only [managers, Option.some.injEq, Prod.mk.injEq] at h
      obtain ⟨rfl, rfl⟩ := h
      refine ⟨_, rfl, rfl, ?_⟩
      rintro s2 rfl
      funext g
      simp only [managers, set]
      split_ifs with h1
      · rw [h1]
      · rfl) p s s rfl
  exact this

/-- **C30.** Even if code inside the block sets flags without a block, or raises, the flag of the block has its previous value when the
block is left. -/
theorem block_restores_its_flag (f : Flag) (v : Bool) (body : FProg) (s : FlagState) :
    ((FProg.block f v body .done).exec s).1 f = s f ∧ ∀ rest, ((FProg.block f v .raise rest).exec s).1 = s := by
  constructor
  · simp only [FProg.exec]
    split_ifs <;> simp [set]
  · intro rest
    simp only [FProg.exec, if_true]
    funext g
    simp only [set]
    split_ifs with h
    · rw [h]
    · rfl

/-- The flags some plain setter in the program sets. -/
def FProg.plain : FProg → List Flag
  | .done => []
  | .raise => []
  | .set f _ rest => f :: rest.plain
  | .get _ rest => rest.plain
  | .block _ _ body rest => body.plain ++ rest.plain

/-- **C30.** Only plain setters have a lasting effect: every other flag is the same after any program, however it ends. -/
theorem only_plain_setters_last (p : FProg) (f : Flag) (h : f ∉ p.plain) (s : FlagState) : (p.exec s).1 f = s f := by
  induction p generalizing s with
  | done => rfl
  | raise => rfl
  | set g v rest ih =>
    simp only [FProg.plain, List.mem_cons, not_or] at h
    simp only [FProg.exec]
    rw [ih h.2]
    simp [set, h.1]
  | get g rest ih => exact ih h s
  | block g v body rest ihb ihr =>
    simp only [FProg.plain, List.mem_append, not_or] at h
    have h1 : set (body.exec (set s g v)).1 g (s g) f = s f := by
      by_cases hf : f = g
      · simp [set, hf]
      · simp only [set, hf, if_false]
        rw [ihb h.1]
        simp [set, hf]
    simp only [FProg.exec]
    split_ifs
    · exact h1
    · exact (ihr h.2 _).trans h1

/-! ### Concrete cases -/

/-- Strict off around a block that turns it on again and raises, caught by nobody: observed `false, true`, then restored. -/
example : (exec managers (.block (.strictQuantization, false) (.act .strictQuantization
    (.block (.strictQuantization, true) (.act .strictQuantization .raise) .done)) (.act .exportMode .done)) init).2 =
    (true, [false, true]) := by decide
example : (exec managers (.block (.exportMode, true) (.act .exportMode .done) (.act .exportMode .done)) init).2 =
    (false, [true, false]) := by decide
/-- A setter of another flag inside a block leaks, as documented for setters. -/
example : ((FProg.block .exportMode true (.set .strictQuantization false (.set .exportMode false .done)) .done).exec init).1
    .strictQuantization = false := by decide

end FF.Flags
