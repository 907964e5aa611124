import Verif.Props.C08
import Verif.Props.C11
import Verif.Props.C19
import Verif.Midend.OutlineHeads

/-!
# C33: the interpreter runs the program it is given

`interpret` (`ein/backend/naive.py:88-93`) does not evaluate the program itself: it rewrites arrays of records
(C11), shares and hoists (C08), and interprets the result in a dictionary that it changes and restores (C19).

Specification: `run`, the meaning of the program as written.
-/

namespace Verif.Props
open Verif.Term Verif.Midend Verif.Phi Verif.Backend
open Verif.Codegen (ctxOf)
variable {F : Type} [FloatOps F] [DecidableEq F]

/-- `outline(struct_of_arrays_transform(program))` (`naive.py:92`); `c` is the number of the next new variable,
`n` bounds the depth of the recursion. -/
def interpretedProgram (n c : Nat) (p : Expr F) : Option (Expr F) := (structOfArrays n c p).bind outline

/-- `interpret(program, env)` (`naive.py:88-93`); also the dictionary afterwards. -/
def interpret (I : Ext F) (n c : Nat) (p : Expr F) (env : Env (D F)) : Option (D F × Env (D F)) :=
  (interpretedProgram n c p).bind fun q => interp I q env

omit [DecidableEq F] in
theorem varHead_distinct (t : Expr F) (v : Nat) : Distinct (Lang.varHead t v) := trivial

/-- C33: if `interpret` returns a value, it is the value of the program, and the dictionary of the caller is as
before. What is missing: that the rewritten program `q` binds every symbol once (false in general: see
`C33_interpret_counterexample`), and that `interpret` returns a value (see C11 and C08 for when its passes do). -/
theorem C33_interpret_partial (I : Ext F) {p q q' : Expr F} {Γ : TCtx} {c n : Nat} (h : SoaInput I p Γ c)
    (hΓ : ∀ s σ, Γ s = some σ → noRecordArrays σ = true) (hq : structOfArrays n c p = some q)
    (hu : UniqueBinders q) (hs : Scoped q) (ha : LetArity q) (hd : ∀ u, Occurs u q → Distinct u.head)
    (hq' : outline q = some q') {env env' : Env (D F)} {v r : D F} (henv : EnvTyped Γ env)
    (hb : ∀ s ∈ binders q', env s = none) (hv : run I p env = some v) (hr : interpret I n c p env = some (r, env')) :
    r = v ∧ env' = env := by
  have hns := hu.noShadow_scoped hs
  simp only [interpret, interpretedProgram, hq, Option.bind_some, hq'] at hr
  have hns' := (C08_outline_scope hu hns ha hs hq').2.2.noShadow_scoped (C08_outline_scope hu hns ha hs hq').2.1
  have hd' : ∀ u, Occurs u q' → Distinct u.head :=
    outline_heads (P := Distinct) (fun v => show Distinct (.letv v) from trivial) (fun _ _ => varHead_distinct _ _) hu hns ha hq' hd
  obtain ⟨h1, h2⟩ := C19_interpreter I q' env env' r hns' hd' hb hr
  have h3 := (C11_partial h hΓ hq).2.2 env v henv hv
  exact ⟨(C08_outline_with_lets_partial I hu hns ha hs hq' env).1 r v h2 h3, h1⟩

omit [FloatOps F] in
/-- C33: the rewritten program is reached, if the first pass returns a program that binds every symbol once. -/
theorem C33_reaches_evaluation [FloatOps F] (I : Ext F) {p q : Expr F} {Γ : TCtx} {c n : Nat} (h : SoaInput I p Γ c)
    (hΓ : ∀ s σ, Γ s = some σ → noRecordArrays σ = true) (hq : structOfArrays n c p = some q)
    (hu : UniqueBinders q) (hl : LetFree q) : ∃ q', outline q = some q' ∧ interpretedProgram n c p = some q' := by
  obtain ⟨σ, h1, _⟩ := (C11_partial h hΓ hq).2.1 q (.refl _)
  obtain ⟨q', hq'⟩ := C08_outline_returns hl hu h1
  exact ⟨q', hq', by simp [interpretedProgram, hq, hq']⟩

/-! ### An example -/

namespace C33Example
open C11Example

/-- `i * i` -/
def square : Expr Int := op2 .multiply (at_ 10) (at_ 10)

/-- `array(λ i. (i² + 1, i² * k))`, where `k` is variable 1 -/
def records : Expr Int :=
  vec 10 (Toy.ivar 0) (cons (op2 .add square (int 1)) (op2 .multiply square (Toy.ivar 1)))

/-- `fold(λ j a. a + records[j].1 * records[2].0, 3, 0)` -/
def p33 : Expr Int :=
  fold 11 12 (int 3) (int 0) (op2 .add (Toy.ivar 12)
    (op2 .multiply (Phi.snd (Phi.get records (Toy.ivar 11))) (Phi.fst (Phi.get records (int 2)))))

/-- The inputs. -/
def env33 : Env (D Int) := Toy.envOf [(0, .int 4), (1, .int 5)]

/-- The types of the inputs. -/
def ctx33 : TCtx := ctxOf [(0, .scalar .int), (1, .scalar .int)]

theorem noRecords33 : ∀ s σ, ctx33 s = some σ → noRecordArrays σ = true := by
  rintro (x | i) σ h
  · by_cases h0 : x = 0
    · subst h0; cases h; rfl
    · by_cases h1 : x = 1
      · subst h1; cases h; rfl
      · simp [ctx33, ctxOf, List.find?, Ne.symm h0, Ne.symm h1] at h
  · cases h

theorem typed33 : EnvTyped ctx33 env33 := by
  rintro (x | i) σ h
  · by_cases h0 : x = 0
    · subst h0; cases h; exact ⟨_, rfl, .sc (.i 4)⟩
    · by_cases h1 : x = 1
      · subst h1; cases h; exact ⟨_, rfl, .sc (.i 5)⟩
      · simp [ctx33, ctxOf, List.find?, Ne.symm h0, Ne.symm h1] at h
  · cases h

/-- No binder is an input. -/
def unbound33 (q : Expr Int) : Bool := decide (Disjoint (binders q) {.var 0, .var 1})

/-- What the theorem asks of the intermediate programs, and the result. -/
def goes33 (p : Expr Int) (v : D Int) : Bool :=
  (structOfArrays 20 20 p).any fun q =>
    decide (UniqueBinders q) && decide (Scoped q) && decide (LetArity q) && decide (LetFree q) &&
    ((occurrences q).all fun u => decide (Distinct u.head)) && (outline q).any fun q' =>
      unbound33 q' && (interp Toy.noExt q' env33).any fun r => decide (r.1 = v)

/-- The hypotheses of `C33_interpret_partial` hold of the example; two expressions are shared, one leaves the
loop. -/
example : goes33 p33 (.int 125) = true ∧ run Toy.noExt p33 env33 = some (.int 125) ∧
    SoaInput Toy.noExt p33 ctx33 20 ∧ (∀ q, unbound33 q = true → ∀ s ∈ binders q, env33 s = none) :=
  ⟨by decide +kernel, by decide +kernel,
    soaInput_of (by decide +kernel) (by decide +kernel) (by decide +kernel) (by decide +kernel) (by decide +kernel)
      (by decide +kernel) (by decide +kernel), fun q hq s hs => by
    have := Finset.disjoint_left.1 (of_decide_eq_true hq) hs
    simp only [Finset.mem_insert, Finset.mem_singleton, not_or] at this
    rcases s with x | i
    · have h0 : 0 ≠ x := fun e => this.1 (e ▸ rfl)
      have h1 : 1 ≠ x := fun e => this.2 (e ▸ rfl)
      simp [env33, Toy.envOf, List.find?, h0, h1]
    · rfl⟩

/-! ### Where it fails -/

/-- `fold(λ j a. a + j * j, 3, i)` -/
def inner : Expr Int := fold 11 12 (int 3) (at_ 10) (op2 .add (Toy.ivar 12) (op2 .multiply (Toy.ivar 11) (Toy.ivar 11)))

/-- `array(λ i. (inner, inner * inner))` -/
def pairs33 : Expr Int := vec 10 (Toy.ivar 0) (cons inner (op2 .multiply inner inner))

/-- `pairs33[1].0 + pairs33[2].1` -/
def q33 : Expr Int := op2 .add (Phi.fst (Phi.get pairs33 (int 1))) (Phi.snd (Phi.get pairs33 (int 2)))

end C33Example

open C33Example C11Example in
/-- Counterexample to the full statement: the program satisfies everything a program from the frontend does, and has
the value 55, but `interpret` fails. Rewriting makes two comprehensions with different indices from one, so the
loop inside occurs twice, once for each index, with the same counter; the common expression `j * j` of both
copies is then moved out of both loops, where `j` is not bound, and the assertion on free symbols
(`lining.py:128-130`) fails. -/
theorem C33_interpret_counterexample : SoaInput Toy.noExt q33 ctx33 20 ∧ UniqueBinders q33 ∧ Scoped q33 ∧ LetFree q33 ∧
    run Toy.noExt q33 env33 = some (.int 55) ∧
    (∃ q, structOfArrays 20 20 q33 = some q ∧ run Toy.noExt q env33 = some (.int 55) ∧ outline q = none) ∧
    interpret Toy.noExt 20 20 q33 env33 = none :=
  ⟨soaInput_of (by decide +kernel) (by decide +kernel) (by decide +kernel) (by decide +kernel) (by decide +kernel)
      (by decide +kernel) (by decide +kernel), by decide +kernel, by decide +kernel, by decide +kernel, by decide +kernel,
    Toy.exists_of_any (by decide +kernel), by
      have : interpretedProgram 20 20 q33 = none := by decide +kernel
      rw [interpret, this]; rfl⟩

end Verif.Props
