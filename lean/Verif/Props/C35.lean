import Verif.Codegen.MemoValid
import Verif.Props.C01Default

/-!
# C35: the cache of the compiler is not visible

The compiler keeps a table of what it has compiled, keyed by the expression alone (`ein/codegen/phi_to_yarr.py:36`,
`297-304`), although the code of an expression depends on the sizes of the indices and the axes of the variables
around it.

Full statement: for every program, the compiler with the table (`compileProgramMemo`) returns exactly what the compiler
without it returns (`compileProgram`).

* `C35_cache_partial`: this holds if no two different binders that the compiler meets bind the same name. A binder may
  occur any number of times, as it does when values are shared.
* `C35_loops_partial`: the same for programs in which no fold is compiled to `einsum` or to a reduction of an array,
  with the condition on the program alone.
* `C35_meaning_partial`: together with C01, the code that the compiler with the table returns computes the value of the
  program.
* `C35_stale_counterexample`: it does not hold in general. A summation whose body contains a loop is compiled twice with
  two different new indices, and the second time the table returns code of parts of the loop that was made for the first.

Missing for the full statement: nothing can be proved for the programs the condition excludes, since it fails for some.
In the theorem the new indices depend on the node only, not on when it is compiled.
-/

namespace Verif.Props
open Verif.Codegen Verif.Phi Verif.Term Verif.Yarr Verif.Arr Verif.Midend
variable {F : Type}

/-! ### Specification -/

/-- The binders in an expression: `let`, comprehensions, folds and reductions. -/
def bindersOf (e : Expr F) : List (Expr F) := (occurrences e).filter fun u => wt u.head ≠ 0

/-- How the compiler compiles a fold, if not to a loop. -/
def planOf (o : Opts F) : Expr F → Option (Plan F)
  | .node h ts => planned o h ts

/-- The binders that the compiler meets: those in the expression, and those in expressions it makes for `einsum` and
reductions of arrays. -/
def reach (o : Opts F) : Nat → Expr F → List (Expr F)
  | 0, _ => []
  | n + 1, e => (bindersOf e).flatMap fun u => u ::
      match planOf o u with
      | some p => (p.outer ++ p.inner).flatMap (reach o n)
      | none => []

/-- The binder has the right number of parts, and its names are different. -/
def properBinder : Expr F → Bool
  | .node h ts => formed h ts && (match h with | .fold c a => decide (c ≠ a) | _ => true)

/-- What the compiler makes of a fold is less deeply nested, closed as the fold is, and its binders are in the list. -/
def PlanSafe [DecidableEq F] (o : Opts F) (L : List (Expr F)) (B : Expr F) (p : Plan F) : Prop :=
  (∀ t ∈ p.outer, (∀ u ∈ bindersOf t, u ∈ L) ∧ Scoped t ∧ height t < height B ∧ fv t ⊆ fv B) ∧
  ∀ t ∈ p.inner, (∀ u ∈ bindersOf t, u ∈ L) ∧ Scoped t ∧ height t < height B ∧
    fv t ⊆ fv B ∪ (p.new.map Sym.idx).toFinset

instance [DecidableEq F] (o : Opts F) (L : List (Expr F)) (B : Expr F) (p : Plan F) : Decidable (PlanSafe o L B p) := by
  unfold PlanSafe; infer_instance

/-- No two different binders in the list bind the same name (including the new indices made for them), and none binds
an input. -/
structure BindsOnce [DecidableEq F] (o : Opts F) (L : List (Expr F)) (inputs : Finset Sym) : Prop where
  different : ∀ B ∈ L, ∀ B' ∈ L, B = B' ∨ Disjoint (caps o B) (caps o B')
  inputs : ∀ B ∈ L, Disjoint (caps o B) inputs
  proper : ∀ B ∈ L, properBinder B = true
  plans : ∀ B ∈ L, ∀ p ∈ planOf o B, PlanSafe o L B p

instance [DecidableEq F] (o : Opts F) (L : List (Expr F)) (inputs : Finset Sym) : Decidable (BindsOnce o L inputs) :=
  decidable_of_iff ((∀ B ∈ L, ∀ B' ∈ L, B = B' ∨ Disjoint (caps o B) (caps o B')) ∧
      (∀ B ∈ L, Disjoint (caps o B) inputs) ∧ (∀ B ∈ L, properBinder B = true) ∧
      ∀ B ∈ L, ∀ p ∈ planOf o B, PlanSafe o L B p)
    ⟨fun ⟨a, b, c, d⟩ => ⟨a, b, c, d⟩, fun ⟨a, b, c, d⟩ => ⟨a, b, c, d⟩⟩

/-- No two different binders that the compiler meets bind the same name. -/
structure Cacheable [DecidableEq F] (o : Opts F) (L : List (Expr F)) (p : Expr F) : Prop where
  all : ∀ B ∈ bindersOf p, B ∈ L
  once : BindsOnce o L (fv p)
  closed : Scoped p

instance [DecidableEq F] (o : Opts F) (L : List (Expr F)) (p : Expr F) : Decidable (Cacheable o L p) :=
  decidable_of_iff ((∀ B ∈ bindersOf p, B ∈ L) ∧ BindsOnce o L (fv p) ∧ Scoped p)
    ⟨fun ⟨a, b, c⟩ => ⟨a, b, c⟩, fun ⟨a, b, c⟩ => ⟨a, b, c⟩⟩

/-! ### Proofs -/

variable [DecidableEq F]

theorem mem_bindersOf {u e : Expr F} : u ∈ bindersOf e ↔ Occurs u e ∧ wt u.head ≠ 0 := by
  simp [bindersOf, mem_occurrences]

theorem once_of_binds {o : Opts F} {L : List (Expr F)} {inputs : Finset Sym} (h : BindsOnce o L inputs) :
    Once o (· ∈ L) inputs := by
  have known : ∀ t, (∀ u ∈ bindersOf t, u ∈ L) → Known (· ∈ L) t := fun t ht u hu hw => ht u (mem_bindersOf.2 ⟨hu, hw⟩)
  refine ⟨fun B B' hB hB' s hs hs' => ?_, fun B hB s hs hi => ?_, fun c a ts hF => ?_, fun hd ts hB => ?_,
    fun c a n z b p hF hp => ?_⟩
  · rcases h.different B hB B' hB' with e | e
    · exact e
    · exact absurd hs' (Finset.disjoint_left.1 e hs)
  · exact Finset.disjoint_left.1 (h.inputs B hB) hs hi
  · have := h.proper _ hF
    simp only [properBinder, Bool.and_eq_true, decide_eq_true_eq] at this
    exact this.2
  · have := h.proper _ hB
    simp only [properBinder, Bool.and_eq_true] at this
    exact this.1
  · obtain ⟨h1, h2⟩ := h.plans _ hF p (by simpa [planOf, fold, planned] using hp)
    exact ⟨fun t ht => ⟨known t (h1 t ht).1, (h1 t ht).2⟩, fun t ht => ⟨known t (h2 t ht).1, (h2 t ht).2⟩⟩

variable [FloatOps F]

/-- **C35.** If no two different binders that the compiler meets bind the same name, the compiler with its table returns
what it returns without it: when the one returns, so does the other, the same code. The bound on the depth of the recursion
may be larger without the table. -/
theorem C35_cache_partial (o : Opts F) (L : List (Expr F)) (p : Expr F) (h : Cacheable o L p) (code : YExpr F) :
    (∀ n, compileProgram o n p = some code → compileProgramMemo (fun _ => o) n p = some code) ∧
    ∀ n, compileProgramMemo (fun _ => o) n p = some code → ∃ k, compileProgram o k p = some code := by
  have ho := once_of_binds h.once
  have hc : Ctx o (· ∈ L) (fv p) (fun _ => False) (fun _ => none) (fun _ => []) :=
    ⟨⟨fun _ _ _ _ => rfl, fun _ _ _ _ => rfl, fun _ _ _ _ _ => rfl⟩, fun _ h => h.elim, fun _ _ _ h => by cases h⟩
  have hr : Ready o (· ∈ L) (fv p) (fun _ => False) p :=
    ⟨fun u hu hw => h.all u (mem_bindersOf.2 ⟨hu, hw⟩), h.closed, fun y hy => .inl hy, fun _ h => h.elim⟩
  have hT : TableOk o (· ∈ L) (fv p) (fun _ => False) (fun _ => none) (fun _ => []) [] := by
    constructor <;> intro _ _ h <;> cases h
  have key := fun n => compileMemo_agrees ho n _ _ _ p [] 0 hc hr hT
  refine ⟨fun n hn => ?_, fun n hn => ?_⟩
  · obtain ⟨x, hx, hn⟩ := Option.bind_eq_some_iff.1 hn
    obtain ⟨r, hr⟩ := (key n).2 x hx
    unfold compileProgramMemo
    rw [hr]
    exact hn
  · obtain ⟨⟨x, r⟩, hx, hn⟩ := Option.bind_eq_some_iff.1 hn
    obtain ⟨⟨k, hk⟩, -, -⟩ := (key n).1 x r hx
    exact ⟨k, by unfold compileProgram; rw [hk]; exact hn⟩

/-- **C35**, for programs without folds that are compiled to `einsum` or to reductions of arrays. -/
theorem C35_loops_partial (o : Opts F) (p : Expr F) (hloops : ∀ B ∈ bindersOf p, planOf o B = none)
    (hproper : ∀ B ∈ bindersOf p, properBinder B = true)
    (hdifferent : ∀ B ∈ bindersOf p, ∀ B' ∈ bindersOf p, B = B' ∨ Disjoint (caps o B) (caps o B'))
    (hinputs : ∀ B ∈ bindersOf p, Disjoint (caps o B) (fv p)) (hscoped : Scoped p) (code : YExpr F) :
    (∀ n, compileProgram o n p = some code → compileProgramMemo (fun _ => o) n p = some code) ∧
    ∀ n, compileProgramMemo (fun _ => o) n p = some code → ∃ k, compileProgram o k p = some code :=
  C35_cache_partial o (bindersOf p) p
    ⟨fun _ h => h, ⟨hdifferent, hinputs, hproper, fun B hB q hq => by rw [hloops B hB] at hq; cases hq⟩, hscoped⟩ code

/-- The compiler with its table, too, returns code that computes the value of the program (C01). -/
theorem C35_meaning_partial (o : Opts F) (I : Ext F) (J : YExt F) (hJ : Vectorises I J) (fuel : Nat) (p : Expr F) (S : Finset Sym)
    (Γ : TCtx) (τ : Ty) (env : Env (D F)) (yenv : Env (YVal F)) (v : D F) (y : YExpr F)
    (h : Setting o I fuel p S Γ τ env yenv v y) (L : List (Expr F)) (hL : Cacheable (program o) L p) :
    compileProgramMemo (fun _ => program o) fuel p = some y ∧ run I p env = some v ∧
      ∃ as, Yarr.eval J y yenv = some (pack as) ∧ Represents v as := by
  obtain ⟨h1, h2, as, r, h3, h4, -, -⟩ := C01_compiled_meaning_partial o I J hJ fuel p S Γ τ env yenv v y h
  exact ⟨(C35_cache_partial _ L p hL y).1 fuel h1, h2, as, h3, h4⟩

/-! ### Examples -/

/-- The default example of C01 meets all conditions. -/
example : ∃ v y, Setting defaultOpts Toy.noExt 20 defaultProgram blurInputs ctx7 (.vector (.scalar .float)) env7 arrays7
    v y ∧ Cacheable (program defaultOpts) (reach (program defaultOpts) 20 defaultProgram) defaultProgram := by
  obtain ⟨v, y, h⟩ := default_setting
  exact ⟨v, y, h, by decide +kernel⟩

/-- Two lines with sums, `einsum` and a maximum, and one of them twice. -/
def sharedLines : Expr Int := op2 .add (op2 .multiply defaultProgram_ defaultProgram_) defaultProgram_
where defaultProgram_ := Phi.get defaultProgram (int 0)

example : Cacheable (program defaultOpts) (reach (program defaultOpts) 20 sharedLines) sharedLines ∧
    (compileProgram (program defaultOpts) 20 sharedLines).isSome = true := by
  refine ⟨by decide +kernel, by decide +kernel⟩

/-- The theorem applies to it. -/
example : ∃ code, compileProgram (program defaultOpts) 20 sharedLines = some code ∧
    compileProgramMemo (fun _ => program defaultOpts) 20 sharedLines = some code := by
  obtain ⟨code, hc⟩ := Option.isSome_iff_exists.1
    (show (compileProgram (program defaultOpts) 20 sharedLines).isSome = true by decide +kernel)
  exact ⟨code, hc, (C35_cache_partial _ (reach (program defaultOpts) 20 sharedLines) _ (by decide +kernel) code).1 20 hc⟩

/-! ### Stale entries -/

/-- The default options; the new indices are different whenever a fold is compiled. -/
def freshOpts (t : Nat) : Opts Int :=
  { takes := true, slicePads := true, sliceElision := true, equiv := fun _ _ => false, pairs := fun _ _ => true,
    plan := standardPlan true true (fun a b => decide (a = b)) (fun c => 100 + 50 * t + c),
    small := standardPlan_small true true _ _ }

/-- `fold(λ c b. b * 2.0 + y[d], 2, 0.0)` -/
def horner (d : Nat) : Expr Int :=
  fold 20 21 (int 2) zero7 (op2 .add (op2 .multiply (var 21 (.scalar .float)) (node (.const (.sc (.f 2)) (.scalar .float)) [])) (at7 1 d))

/-- `∑ d < y.size, fold(λ c b. b * 2.0 + y[d], 2, 0.0)` -/
def horners : Expr Int := sum7 22 23 (dim (fs 1) 0) (horner 22)

/-- `t + ∑ e < x.size, x[e] * t`, where `t` is `horners` -/
def stale : Expr Int := op2 .add horners (sum7 24 25 (dim (fs 0) 0) (op2 .multiply (at7 0 24) horners))

/-- The table changes what is compiled. The program is well-typed, mentions nothing but inputs, has a value, and is
compiled without the table; different binders have different names. With the table, the compiler fails: the inner sum is
compiled first to a reduction over one new index, then as a part of `einsum` over another one, and `b * 2.0` is not compiled
again, since it mentions neither; its code has the first index as an axis, which is still there in the end (the
assertion in `normal`, `axial.py:57-60`). -/
theorem C35_stale_counterexample :
    lexical stale blurInputs = true ∧ Phi.typeOf stale = some (.scalar .float) ∧
    (∀ B ∈ bindersOf stale, ∀ B' ∈ bindersOf stale, B = B' ∨ Disjoint B.head.captured B'.head.captured) ∧
    run Toy.noExt stale env7 = some (.sc (.f 252)) ∧
    (compileProgram (freshOpts 0) 20 stale).isSome = true ∧
    (compileProgramMemo freshOpts 20 horners).isSome = true ∧
    compileProgramMemo freshOpts 20 stale = none := by
  refine ⟨by decide +kernel, by decide +kernel, by decide +kernel, by decide +kernel, by decide +kernel, by decide +kernel,
    by decide +kernel⟩

/-- The condition of the theorem does not hold for it. -/
example : ¬ Cacheable (freshOpts 0) (reach (freshOpts 0) 20 stale) stale := by decide +kernel

end Verif.Props
