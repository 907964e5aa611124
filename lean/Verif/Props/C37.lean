import Verif.Props.C34
import Verif.Backend.Jax

/-!
# C37: the JAX and PyTorch backends, from the program to the result

`stage(program)(env)` of the JAX backend (`ein/backend/jax_backend.py:164-228`) and of the PyTorch backend
(`ein/backend/torch_backend.py:121-177`) rewrites arrays of records (C11), compiles to array code (C01), simplifies it
(C29), shares and hoists (C08), and executes the result with the functions of the library.

Specification: `run`, the meaning of the program as written; `Represents`, when arrays represent a value.
-/

namespace Verif.Props
open Verif.Codegen Verif.Phi Verif.Term Verif.Yarr Verif.Arr Verif.Midend Verif.Backend
variable {F : Type} [FloatOps F] [DecidableEq F]

/-- `stage(program)(env)` with JAX (`jax_backend.py:204-222`). -/
def jaxRun (o : Opts F) (J : YExt F) (n c fuel : Nat) (p : Expr F) (env : Env (YVal F)) : Option (YVal F) :=
  (arrayProgram o n c fuel p).bind fun r => (outline r).bind fun e => jaxWrapper J (fv r) e env

/-- `stage(program)(env)` with PyTorch (`torch_backend.py:155-164`). -/
def torchRun (o : Opts F) (J : YExt F) (n c fuel : Nat) (p : Expr F) (env : Env (YVal F)) : Option (YVal F) :=
  (arrayProgram o n c fuel p).bind fun r => (outline r).bind fun e => evalP torchPrims J e env

/-- `stage(program)(env)` with the primitives on which the backends agree (C30). -/
def carefulRun (o : Opts F) (J : YExt F) (n c fuel : Nat) (p : Expr F) (env : Env (YVal F)) : Option (YVal F) :=
  (arrayProgram o n c fuel p).bind fun r => (outline r).bind fun e => evalP carefulPrims J e env

/-- Axes are inserted in ascending order and removed one at a time in the code that is executed, too. -/
theorem allGen_outlined {o : Opts F} {n c fuel : Nat} {p : Expr F} {r e : YExpr F} (hr : arrayProgram o n c fuel p = some r)
    (hw : WellScoped r) (he : outline r = some e) : ∀ u, Occurs u e → Generated u.head := by
  refine outline_heads (P := Generated) (fun v => (show Generated (Yarr.Head.letv v : Yarr.Head F) from trivial)) (fun t v => ?_) hw.unique
    (hw.unique.noShadow_scoped hw.scope) hw.arity he ?_
  · exact trivial
  · rw [arrayProgram, Option.bind_eq_some_iff] at hr
    obtain ⟨q, -, hr⟩ := hr
    rw [Option.bind_eq_some_iff] at hr
    obtain ⟨y, hy, hr⟩ := hr
    intro u hu
    obtain ⟨w, o1, -, h1⟩ := cancelTuple_source _ _ hr _ hu
    obtain ⟨w', o2, -, h2⟩ := cancelShape_source _ _ o1
    rw [← h1, ← h2]
    exact allGen_compileProgram hy w' o2

/-- Whatever the executed code evaluates to represents the value of the program. -/
theorem outlined_meaning (o : Opts F) (I : Ext F) (J : YExt F) (hJ : Vectorises I J) {n c fuel : Nat}
    {p q : Expr F} {Γ : TCtx} {S : Finset Sym} {τ : Ty} {env : Env (D F)} {yenv : Env (YVal F)} {v w : D F} {y r e : YExpr F}
    (hp : SoaInput I p Γ c) (hΓ : ∀ s σ, Γ s = some σ → noRecordArrays σ = true)
    (hq : structOfArrays n c p = some q) (hset : Setting o I fuel q S Γ τ env yenv v y)
    (hr : arrayProgram o n c fuel p = some r) (hw : WellScoped r) (he : outline r = some e)
    (hrun : run I p env = some w) {u : YVal F} (hu : Yarr.eval J e yenv = some u) :
    ∃ as, u = pack as ∧ Represents w as := by
  have hwv : w = v := by
    have h1 := (C11_partial hp hΓ hq).2.2 env w hset.values hrun
    have h2 := (C01_compiled_meaning_partial o I J hJ fuel q S Γ τ env yenv v y hset).2.1
    rw [h1] at h2
    exact Option.some.inj h2
  subst hwv
  obtain ⟨hy, -, as, r', h1, h2, h3, h4⟩ := C01_compiled_meaning_partial o I J hJ fuel q S Γ τ env yenv w y hset
  have hr' : r' = r := by
    rw [arrayProgram, hq, Option.bind_some, hy, Option.bind_some, h3] at hr
    exact Option.some.inj hr
  subst hr'
  exact ⟨as, (outline_unique (strict J) hw.unique (hw.unique.noShadow_scoped hw.scope) hw.arity hw.scope he yenv h4 hu).symm, h2⟩

/-- C37, JAX: if no two different binders that the compiler meets bind the same name (C35), then whatever the JAX
backend returns represents the value of the program as written.

What is missing: the conditions of C01 (`Setting`) and C35 (`Cacheable`) on the program without records, and that
the backend returns a value (JAX rejects, for instance, sizes that depend on data). -/
theorem C37_jax_partial (o : Opts F) (I : Ext F) (J : YExt F) (hJ : Vectorises I J) {n c fuel : Nat}
    {p q : Expr F} {Γ : TCtx} {S : Finset Sym} {τ : Ty} {env : Env (D F)} {yenv : Env (YVal F)} {v w : D F} {y : YExpr F}
    {L : List (Expr F)} (hp : SoaInput I p Γ c) (hΓ : ∀ s σ, Γ s = some σ → noRecordArrays σ = true)
    (hq : structOfArrays n c p = some q) (hset : Setting o I fuel q S Γ τ env yenv v y) (hL : Cacheable (program o) L q)
    (hrun : run I p env = some w) (u : YVal F) (hu : jaxRun o J n c fuel p yenv = some u) :
    ∃ as, u = pack as ∧ Represents w as := by
  simp only [jaxRun, Option.bind_eq_some_iff] at hu
  obtain ⟨r, hr, e, he, hu⟩ := hu
  exact outlined_meaning o I J hJ hp hΓ hq hset hr (C34_code_well_scoped o hq hL hr).1 he hrun (jaxWrapper_le J _ _ _ u hu)

/-- C37, JAX and PyTorch: if the code evaluates with the primitives on which the backends agree (`carefulPrims`, C30),
then PyTorch returns arrays, they represent the value of the program as written, and JAX returns the same arrays if it
returns.

What is missing: the conditions of C01 (`Setting`) and C35 (`Cacheable`) on the program without records; the
restriction to `carefulPrims` is needed, as the counterexamples of C30 show. -/
theorem C37_torch_partial (o : Opts F) (I : Ext F) (J : YExt F) (hJ : Vectorises I J) {n c fuel : Nat}
    {p q : Expr F} {Γ : TCtx} {S : Finset Sym} {τ : Ty} {env : Env (D F)} {yenv : Env (YVal F)} {v w : D F} {y : YExpr F}
    {L : List (Expr F)} (hp : SoaInput I p Γ c) (hΓ : ∀ s σ, Γ s = some σ → noRecordArrays σ = true)
    (hq : structOfArrays n c p = some q) (hset : Setting o I fuel q S Γ τ env yenv v y) (hL : Cacheable (program o) L q)
    (hrun : run I p env = some w) (z : YVal F) (hz : carefulRun o J n c fuel p yenv = some z) :
    torchRun o J n c fuel p yenv = some z ∧ (∃ as, z = pack as ∧ Represents w as) ∧
      ∀ u, jaxRun o J n c fuel p yenv = some u → u = z := by
  simp only [carefulRun, Option.bind_eq_some_iff] at hz
  obtain ⟨r, hr, e, he, hz⟩ := hz
  have hw := (C34_code_well_scoped o hq hL hr).1
  have hg := allGen_outlined hr hw he
  have h1 := evalP_le J e (fun u hu => careful_torch (hg u hu)) yenv z hz
  have h2 := evalP_le J e (fun u hu => careful_jax (hg u hu)) yenv z hz
  rw [evalP_jax] at h2
  refine ⟨by simp [torchRun, hr, he, h1], outlined_meaning o I J hJ hp hΓ hq hset hr hw he hrun h2, fun u hu => ?_⟩
  simp only [jaxRun, hr, he, Option.bind_some] at hu
  have := jaxWrapper_le J _ _ _ u hu
  rw [h2] at this
  exact (Option.some.inj this).symm

/-! ### Examples -/

namespace C37Example
open C11Example C33Example C34Example

/-- The program of C34, with records, a sum of products and a negation: both theorems apply, and both backends return
the array that represents the value. -/
example : ∃ u, jaxRun defaultOpts (fun _ _ => none) 20 20 30 p34 arrays7 = some u ∧
    torchRun defaultOpts (fun _ _ => none) 20 20 30 p34 arrays7 = some u ∧
    ∃ as, u = pack as ∧ Represents (floats [69, 23, 46]) as := by
  obtain ⟨q, v, y, hq, hset⟩ := setting34
  obtain ⟨q', hq', hL, -⟩ := cacheable34
  cases hq.symm.trans hq'
  obtain ⟨z, hz⟩ := Option.isSome_iff_exists.1
    (show (carefulRun defaultOpts (fun _ _ => none) 20 20 30 p34 arrays7).isSome = true by decide +kernel)
  obtain ⟨u, hu⟩ := Option.isSome_iff_exists.1
    (show (jaxRun defaultOpts (fun _ _ => none) 20 20 30 p34 arrays7).isSome = true by decide +kernel)
  obtain ⟨h1, h2, h3⟩ := C37_torch_partial defaultOpts Toy.noExt (fun _ _ => none) (vectorises_none _) input34 flat7 hq hset hL
    value34 z hz
  cases h3 u hu
  exact ⟨z, hu, h1, C37_jax_partial defaultOpts Toy.noExt (fun _ _ => none) (vectorises_none _) input34 flat7 hq hset hL
    value34 z hu⟩

/-- `fold(2, x, λ c a. concat(a, x))`, for the input `x` (variable 0) -/
def grow37 : Expr Int := fold 6 7 (int 2) (fs 0) (node .concat [var 7 (.vector (.scalar .float)), fs 0])

/-- `fold(2, x, λ c a. array(λ i. a[i] * x[i]))` -/
def power37 : Expr Int := fold 6 7 (int 2) (fs 0)
  (vec 2 (dim (fs 0) 0) (op2 .multiply (Phi.get (var 7 (.vector (.scalar .float))) (at_ 2)) (Phi.get (fs 0) (at_ 2))))

/-- A loop that is executed by JAX as such. -/
example : jaxRun defaultOpts (fun _ _ => none) 20 20 30 power37 arrays7 =
    some (.arr ⟨[3], [27, 1, 8].map Scal.f, rfl⟩) ∧
    (arrayProgram defaultOpts 20 20 30 power37).any (occursIn fun h => match h with | .fold _ _ => true | _ => false) = true := by
  decide +kernel

/-- JAX need not return: what a `fori_loop` carries keeps its shape, so folds the accumulator of which grows have a
value, which the other backends compute, and are rejected by JAX. -/
theorem C37_jax_returns_counterexample :
    run Toy.noExt grow37 env7 = some (floats [3, 1, 2, 3, 1, 2, 3, 1, 2]) ∧
    torchRun defaultOpts (fun _ _ => none) 20 20 30 grow37 arrays7 =
      some (.arr ⟨[9], [3, 1, 2, 3, 1, 2, 3, 1, 2].map Scal.f, rfl⟩) ∧
    jaxRun defaultOpts (fun _ _ => none) 20 20 30 grow37 arrays7 = none := by decide +kernel

/-- JAX raises if a free variable has no value. -/
example : jaxRun defaultOpts (fun _ _ => none) 20 20 30 grow37 (fun _ => none) = none := by decide +kernel

end C37Example
end Verif.Props
