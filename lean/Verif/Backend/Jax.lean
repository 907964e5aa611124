import Verif.Backend.Careful

/-!
What is particular to the JAX backend (`ein/backend/jax_backend.py:98-228`): loops are `fori_loop`s, and the function
that is compiled takes the values of the free variables only.
-/

set_option linter.unusedSectionVars false

namespace Verif.Backend
open Verif.Phi Verif.Term Verif.Yarr Verif.Arr Verif.Midend Verif.Codegen
variable {F : Type}

/-- Do the numbers have the same kind? -/
def sameKind : Scal F → Scal F → Bool
  | .i _, .i _ => true
  | .f _, .f _ => true
  | .b _, .b _ => true
  | _, _ => false

/-- Do the arrays have the same shape and kind of elements? -/
def sameAval (a b : A F) : Bool := decide (a.shape = b.shape) && (a.data.zip b.data).all fun p => sameKind p.1 p.2

/-- Are the values of the same form, as `fori_loop` asks of what a loop carries? -/
def sameCarry : YVal F → YVal F → Bool
  | .arr a, .arr b => sameAval a b
  | .tup as, .tup bs => decide (as.length = bs.length) && (as.zip bs).all fun p => sameAval p.1 p.2
  | _, _ => false

/-- `jax.lax.fori_loop(0, n, body, init)`, from its documentation: the body is applied for `i = 0, ..., n - 1`, and what
it returns has the form of its argument. The body is traced even if there is no iteration, where it may raise;
this is not modelled. -/
def foriLoop (n : Nat) (body : Nat → YVal F → Option (YVal F)) (init : YVal F) : Option (YVal F) :=
  loopOpt (fun acc i => (body i acc).bind fun r => if sameCarry acc r then some r else none) init (List.range n)

variable [FloatOps F]

/-- One node of `go_either` (`jax_backend.py:164-198`) and of `stage` (`array_backend.py:157-255`): loops are those of
`jax_fold_impl` (`jax_backend.py:98-116`), the rest is as in the other backends. -/
def denJax (J : YExt F) : Yarr.Head F → List (Env (YVal F) → Option (YVal F)) → Env (YVal F) → Option (YVal F)
  | .fold c a, [n, z, b], env => (((n env).bind YVal.asArr).bind asSize).bind fun k => (z env).bind fun x =>
      foriLoop (max k 0).toNat (fun i acc =>
        b ((env.set (.var a) (some acc)).set (.var c) (some (.arr (.scalar (.i i)))))) x
  | h, fs, env => denP jaxPrims J h fs env

/-- The value of staged code (`jax_backend.py:164-201`). -/
def evalJax (J : YExt F) (e : YExpr F) : Env (YVal F) → Option (YVal F) := cata (denJax J) e

theorem evalJax_node (J : YExt F) (h : Yarr.Head F) (ts : List (YExpr F)) :
    evalJax J (node h ts) = denJax J h (ts.map (evalJax J)) := cata_node ..

/-- `wrapped_staged` and `wrapper` (`jax_backend.py:208-222`): the values of the free variables of the array program
are looked up, which raises if there is none, and nothing else is passed on. -/
def jaxWrapper (J : YExt F) (vars : Finset Sym) (code : YExpr F) (env : Env (YVal F)) : Option (YVal F) :=
  if ∀ s ∈ vars, (env s).isSome = true then evalJax J code (fun s => if s ∈ vars then env s else none) else none

/-! ### What JAX computes is what the reference computes -/

theorem foriLoop_le (l : List Nat) (f : YVal F → Nat → Option (YVal F)) (x : YVal F) :
    Le (loopOpt (fun acc i => (f acc i).bind fun r => if sameCarry acc r then some r else none) x l) (loopOpt f x l) := by
  induction l generalizing x with
  | nil => exact Le.rfl
  | cons i l ih =>
    intro v hv
    simp only [loopOpt, Option.bind_eq_some_iff] at hv
    obtain ⟨r, ⟨r', h1, h2⟩, hv⟩ := hv
    split at h2
    · cases h2
      simp only [loopOpt, h1, Option.bind_some]
      exact ih _ v hv
    · cases h2

theorem denJax_le (J : YExt F) (h : Yarr.Head F) (fs : List (Env (YVal F) → Option (YVal F))) (env : Env (YVal F)) :
    Le (denJax J h fs env) (denP jaxPrims J h fs env) := by
  unfold denJax
  split
  · refine Le.bind Le.rfl fun k _ => Le.bind Le.rfl fun x _ => ?_
    have hk : (max k 0).toNat = k.toNat := by omega
    unfold foriLoop
    rw [hk]
    exact foriLoop_le _ _ _
  · exact Le.rfl

theorem evalJax_le (J : YExt F) (e : YExpr F) (env : Env (YVal F)) : Le (evalJax J e env) (Yarr.eval J e env) := by
  rw [← evalP_jax]
  induction e using Term.ind generalizing env with
  | step hd ts ih =>
    rw [evalJax_node, evalP_node]
    refine fun v hv => ?_
    refine denP_le J (h := hd) ?_ ?_ env v (denJax_le J hd _ env v hv)
    · cases hd <;> simp only [HeadLe] <;> first | trivial | (intros; exact Le.rfl) | exact ⟨fun _ => Le.rfl, fun _ => Le.rfl⟩
    · rw [List.forall₂_map_left_iff, List.forall₂_map_right_iff]
      exact List.forall₂_same.2 (fun t ht => ih t ht)

/-- With fewer variables, less is computed. -/
theorem eval_env_le (J : YExt F) (e : YExpr F) : ∀ {env env' : Env (YVal F)}, (∀ s, Le (env s) (env' s)) →
    Le (Yarr.eval J e env) (Yarr.eval J e env') := by
  induction e using Term.ind with
  | step hd ts ih =>
    intro env env' hle
    rw [Yarr.eval_node]
    refine den_mono J hd _ _ env env' rfl (fun s _ => hle s) (fun k f g hf hg => ?_)
    rw [List.getElem?_map, Option.map_eq_some_iff] at hf hg
    obtain ⟨t, ht, rfl⟩ := hf
    obtain ⟨t', ht', rfl⟩ := hg
    cases ht.symm.trans ht'
    have hm := List.mem_of_getElem? ht
    refine ⟨fun _ => ih t hm hle, fun _ m => ih t hm fun s => ?_⟩
    unfold Env.override
    split
    · exact Le.rfl
    · exact hle s

theorem jaxWrapper_le (J : YExt F) (vars : Finset Sym) (code : YExpr F) (env : Env (YVal F)) :
    Le (jaxWrapper J vars code env) (Yarr.eval J code env) := by
  unfold jaxWrapper
  split
  · refine fun v hv => eval_env_le J code (fun s => ?_) v (evalJax_le J code _ v hv)
    split
    · exact Le.rfl
    · rintro _ ⟨⟩
  · rintro _ ⟨⟩

end Verif.Backend
