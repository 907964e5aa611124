import Verif.Codegen.Contract
import Verif.Props.C06

/-!
# C07: sums of products executed with einsum have the value of the nested loops

With `use_einsum` (the default) the compiler rewrites a summation fold to a sum of products (`Dot.lift`,
`phi_to_yarr.py:431-506`) and compiles each product to one `einsum` over the arrays of its factors, in which
an index stands for each counter (`phi_to_yarr.py:80-153`).

The specification: `run` on the fold is the nested loop; `sumOfProducts` is the sum, over the summands, of the
nested sums of the products of the factors.
-/

namespace Verif.Props
open Verif.Codegen Verif.Phi Verif.Term Verif.Yarr Verif.Arr Verif.Midend
variable {F : Type} [DecidableEq F] [CommRing F] [FloatOps F] [RingFloat F] [AssocFloat F]

/-- `∑ c₁ < n₁, …, ∑ cₖ < nₖ, ∏ factors`, for one summand. -/
def nestedSum (I : Ext F) : List (Nat × Expr F) → List (Expr F) → Env (D F) → F
  | [], factors, env => (factors.map fun f => floatOf (run I f env)).prod
  | (c, n) :: cs, factors, env =>
    ∑ j ∈ Finset.range (countOf (run I n env)), nestedSum I cs factors (env.set (.var c) (some (.int j)))

omit [DecidableEq F] [RingFloat F] [AssocFloat F] in
theorem nestedSum_eq (I : Ext F) (cs : List (Nat × Expr F)) (p : List (Expr F)) :
    ∀ env, nestedSum I cs p env = nested I cs p env := by
  induction cs with
  | nil => exact fun _ => rfl
  | cons q cs ih => exact fun env => Finset.sum_congr rfl fun j _ => ih _

/-- C07, normal form: an expression that is a float has the value of the sum of products that `Dot.lift` makes of
it. The expression may be any nesting of summations, sums, differences, negations and products; names are bound
once, and the elements of summations do not mention the accumulators. -/
theorem C07_normal_form (I : Ext F) (k : Nat) (e : Expr F) (S : Finset Sym) (d : Dot F) (hd : lift k e = some d)
    (hs : Scoped e) (hl : lexical e S = true) (ha : AccFree e) (env : Env (D F)) (w : F)
    (hw : run I e env = some (.sc (.f w))) :
    w = (d.summands.map fun s => nestedSum I s.1 s.2 env).sum := by
  rw [run_lift I k e S d hd hs hl ha env w hw]
  unfold total
  congr 1
  exact List.map_congr_left fun s _ => (nestedSum_eq I s.1 s.2 env).symm

/-- C07, letters: the subscripts with letters that are passed to `einsum` give the same result as the indices
for which they stand. -/
theorem C07_letters {α : Type} (mul add : List α → Option α) (operands : List (List Nat)) (result : List Nat)
    (arrays : List (NArr α)) (subs : List (List Nat)) (res : List Nat)
    (h : toEinsumSubs operands result = some (subs, res)) :
    NArr.einsum mul add subs res arrays = NArr.einsum mul add operands result arrays :=
  einsum_letters mul add operands result arrays h

/-- C07, letters: subscripts exist exactly if there are at most 26 different indices (the program fails with an
`IndexError` if there are more), and they are made of the 26 letters. -/
theorem C07_letters_available (operands : List (List Nat)) (result : List Nat) :
    ((toEinsumSubs operands result).isSome = true ↔ (operands.flatten ++ result).toFinset.card ≤ 26) ∧
      ∀ subs res, toEinsumSubs operands result = some (subs, res) → ∀ x ∈ subs.flatten ++ res, x < 26 :=
  ⟨letters_iff operands result, fun _ _ h => letters_lt h⟩

/-- C07, code inside comprehensions: if a fold is executed with `einsum`, then for every assignment `ρ` of the
indices in scope the code holds the value of the nested loops.

What is missing: the conditions `Contractible`, in particular that each counter of a summand is an axis of one of
its factors (see `C07_multiplicity_counterexample`) and that no factor binds a counter again (see
`C07_capture_counterexample`); sums over empty ranges. -/
theorem C07_einsum_code_partial (o : Opts F) (I : Ext F) (J : YExt F) (hJ : Vectorises I J) (S : Finset Sym) (σ : Nat → Nat)
    (sizes : Nat → Option (YExpr F)) (vaxes : Nat → List Nat) (E : (Nat → Nat) → Env (D F)) (yenv : Env (YVal F))
    (new M : Nat → Nat) (e : Expr F) (d : Dot F) (k fuel : Nat) (y : Axial F) (equiv : Expr F → Expr F → Bool)
    (hf : FoldsOk o) (hE : EnvRel J S σ sizes vaxes E yenv) (hd : lift k e = some d)
    (hc : Contractible (evenPairs o) I S σ vaxes E new M e d)
    (hy : einsumFold equiv (fun sizes => compile (evenPairs o) fuel sizes vaxes) sizes new k e = some (some y))
    (hv : ∀ ρ, Valid (inScope S) σ ρ → ∃ w : F, run I e (E ρ) = some (.sc (.f w))) :
    Means J yenv (inScope S) σ y fun ρ => run I e (E ρ) :=
  means_einsumFold equiv (compile_correct (fun _ _ => sameAxes_mem) rfl (hf.evenPairs.plans I J) hJ fuel) hE hd hc hy hv

/-- C07, programs: the array program made of a fold evaluates to an array that represents the value `w` of the
nested loops. `S` are the inputs, `env` their values, and `yenv` arrays that represent these. -/
theorem C07_einsum_program_partial (o : Opts F) (I : Ext F) (J : YExt F) (hJ : Vectorises I J) (S : Finset Sym) (env : Env (D F))
    (yenv : Env (YVal F)) (new M : Nat → Nat) (e : Expr F) (d : Dot F) (k fuel : Nat) (y : Axial F)
    (equiv : Expr F → Expr F → Bool) (w : F) (hf : FoldsOk o) (inputs : ∀ s ∈ S, ∃ x, s = Sym.var x)
    (arrays : ∀ x, Sym.var x ∈ S → ∃ w as, env (.var x) = some w ∧ yenv (.var x) = some (pack as) ∧ Represents w as)
    (hd : lift k e = some d)
    (hc : Contractible (evenPairs o) I S (fun _ => 0) (fun _ => []) (fun _ => env) new M e d)
    (hy : einsumFold equiv (fun sizes => compile (evenPairs o) fuel sizes fun _ => []) (fun _ => none) new k e =
      some (some y))
    (hv : run I e env = some (.sc (.f w))) :
    ∃ as, y.axes = [] ∧ Yarr.eval J y.expr yenv = some (pack as) ∧ Represents (.sc (.f w)) as := by
  have hno : ∀ i, Sym.idx i ∉ S := by
    intro i hi
    obtain ⟨x, hx⟩ := inputs _ hi
    cases hx
  obtain ⟨h1, as, ss, h2, h3⟩ := C07_einsum_code_partial o I J hJ S (fun _ => 0) (fun _ => none) (fun _ => [])
    (fun _ => env) yenv new M e d k fuel y equiv hf (envRel_inputs J inputs arrays) hd hc hy fun _ _ => ⟨w, hv⟩
  have hax : y.axes = [] := by
    cases hl : y.axes with
    | nil => rfl
    | cons j l => exact absurd (h1 j (by simp [hl])) (hno j)
  refine ⟨as, hax, h2.value, ?_⟩
  obtain ⟨v, h4, h5⟩ := h3 (fun _ => 0) fun i hi => absurd hi (hno i)
  cases hv.symm.trans h4
  have hs := h2.shape
  rw [hax] at h5 hs
  rw [views_nil (by simpa using hs)] at h5
  exact h5

/-! ### Non-vacuity -/

instance : RingFloat Int where
  zero := rfl
  neg _ := rfl
  add _ _ := rfl
  sub _ _ := rfl
  mul _ _ := rfl

/-- The float 0 with which sums start, and the float 1. -/
def zero7 : Expr Int := node (.const (.sc (.f 0)) (.scalar .float)) []
def one7 : Expr Int := node (.const (.sc (.f 1)) (.scalar .float)) []

/-- `∑ c < x.size, elem`, with accumulator `a` -/
def sum7 (c a : Nat) (n elem : Expr Int) : Expr Int := fold c a n zero7 (op2 .add (var a (.scalar .float)) elem)

/-- `x[c]` -/
def at7 (x c : Nat) : Expr Int := Phi.get (fs x) (var c (.scalar .int))

/-- `∑ i < x.size, x[i] * ∑ j < y.size, y[j] * (y[j] - 1)` -/
def dot7 : Expr Int :=
  sum7 4 5 (dim (fs 0) 0) (op2 .multiply (at7 0 4)
    (sum7 6 7 (dim (fs 1) 0) (op2 .multiply (at7 1 6) (op2 .subtract (at7 1 6) one7))))

/-- The new indices and their sizes. -/
def new7 (c : Nat) : Nat := c + 10
def size7 (i : Nat) : Nat := if i = 14 then 3 else 2

/-- Values and arrays of `x` and `y`. -/
def env7 : Env (D Int) := Toy.envOf [(0, floats [3, 1, 2]), (1, floats [5, 7])]
def arrays7 : Env (YVal Int) := yenvOf [(0, vecArr [.f 3, .f 1, .f 2]), (1, vecArr [.f 5, .f 7])]

/-- The normal form. -/
def nf7 : Dot Int :=
  ⟨[(6, dim (fs 1) 0), (4, dim (fs 0) 0)],
   [([(4, dim (fs 0) 0), (6, dim (fs 1) 0)], [at7 0 4, at7 1 6, at7 1 6]),
    ([(4, dim (fs 0) 0), (6, dim (fs 1) 0)], [at7 0 4, at7 1 6, node (.op .negate) [one7]])]⟩

theorem lift7 : lift 10 dot7 = some nf7 := by decide +kernel

/-- `6 * (5 * 4 + 7 * 6) = 372` -/
example : run Toy.noExt dot7 env7 = some (.sc (.f 372)) := by decide +kernel

/-- The compiler of the examples. -/
def compile7 (sizes : Nat → Option (YExpr Int)) : Expr Int → Option (Axial Int) :=
  compile (evenPairs allReads) 20 sizes fun _ => []

/-- The einsum branch for the examples. -/
def einsum7 (e : Expr Int) : Option (Axial Int) := (einsumFold same6 compile7 (fun _ => none) new7 10 e).bind id

theorem einsum7_some {e : Expr Int} {y : Axial Int} (h : einsum7 e = some y) :
    einsumFold same6 compile7 (fun _ => none) new7 10 e = some (some y) := by
  obtain ⟨z, hz, rfl⟩ := Option.bind_eq_some_iff.1 h
  exact hz

theorem contractible7 : Contractible (evenPairs allReads) Toy.noExt {.var 0, .var 1} (fun _ => 0) (fun _ => [])
    (fun _ => env7) new7 size7 dot7 nf7 where
  closed := by decide +kernel
  binders := by decide +kernel
  acc := accFree_of (by decide +kernel)
  newIdx := by decide +kernel
  inj := by decide +kernel
  sizesScope := by decide +kernel
  capture := by decide +kernel
  factorScope := by decide +kernel
  axis := by decide +kernel
  sizesVal := by
    intro q hq
    simp only [nf7, List.mem_cons, List.not_mem_nil, or_false] at hq
    rcases hq with rfl | rfl
    · exact ⟨by decide, fun _ _ => by decide +kernel⟩
    · exact ⟨by decide, fun _ _ => by decide +kernel⟩
  factorVal := by
    intro s hs f hf ρ hρ
    have h4 : ρ 14 < 3 := hρ 14 (by
      simp only [nf7, List.mem_cons, List.not_mem_nil, or_false] at hs
      rcases hs with rfl | rfl <;> (unfold inScope; decide))
    have h6 : ρ 16 < 2 := hρ 16 (by
      simp only [nf7, List.mem_cons, List.not_mem_nil, or_false] at hs
      rcases hs with rfl | rfl <;> (unfold inScope; decide))
    have key : ∀ a < 3, ∀ b < 2, ∀ s ∈ nf7.summands, ∀ f ∈ s.2,
        (check (evenPairs allReads) Toy.noExt true (withIndices new7 nf7 f) (over size7 (nf7.counters.map new7) fun _ => 0)
          (setIdx (fun i => if i = 14 then a else b) (s.1.map fun q => new7 q.1) env7)).isSome = true := by
      decide +kernel
    obtain ⟨v, hv⟩ := Option.isSome_iff_exists.1 (key _ h4 _ h6 s hs f hf)
    refine ⟨v, ?_⟩
    have : ∀ s ∈ nf7.summands, setIdx ρ (s.1.map fun q => new7 q.1) env7 =
        setIdx (fun i => if i = 14 then ρ 14 else ρ 16) (s.1.map fun q => new7 q.1) env7 := by
      intro s hs
      simp only [nf7, List.mem_cons, List.not_mem_nil, or_false] at hs
      rcases hs with rfl | rfl <;> rfl
    rw [this s hs]
    exact hv

/-- The nested sums are executed with two `einsum`s, the sum of which is the value of the loops. -/
example : ∃ y as, einsum7 dot7 = some y ∧ Yarr.eval (fun _ _ => none) y.expr arrays7 = some (pack as) ∧
    Represents (.sc (.f 372)) as := by
  obtain ⟨y, hy⟩ := Option.isSome_iff_exists.1 (show (einsum7 dot7).isSome = true by decide +kernel)
  obtain ⟨as, -, h1, h2⟩ := C07_einsum_program_partial allReads Toy.noExt (fun _ _ => none) (vectorises_none _) {.var 0, .var 1} env7 arrays7
    new7 size7 dot7 nf7 10 20 y same6 372 (.loops fun _ _ _ _ _ => rfl) (by simp) (by
      intro x hx
      simp only [Finset.mem_insert, Finset.mem_singleton, Sym.var.injEq] at hx
      rcases hx with rfl | rfl
      · exact ⟨_, _, rfl, rfl, represents_floats [3, 1, 2] (by simp)⟩
      · exact ⟨_, _, rfl, rfl, represents_floats [5, 7] (by simp)⟩) lift7 contractible7 (einsum7_some hy)
    (by decide +kernel)
  exact ⟨y, as, hy, h1, h2⟩

/-- The same, for the normal form. -/
example : (372 : Int) = (nf7.summands.map fun s => nestedSum Toy.noExt s.1 s.2 env7).sum :=
  C07_normal_form Toy.noExt 10 dot7 {.var 0, .var 1} nf7 lift7 (by decide +kernel) (by decide +kernel)
    (accFree_of (by decide +kernel)) env7 372 (by decide +kernel)

/-- A matrix product with letters. -/
example : toEinsumSubs [[11, 14], [14, 12]] [11, 12] = some ([[0, 1], [1, 2]], [0, 2]) := by decide +kernel

/-- With 26 indices there are letters, with 27 there are not. -/
example : (toEinsumSubs [List.range 13, List.range' 13 13] []).isSome = true ∧
    toEinsumSubs [List.range 13, List.range' 13 14] [] = none := by decide +kernel

/-! ### Where it fails -/

/-- The number that the array program computes. -/
def number7 (y : Axial Int) (yenv : Env (YVal Int)) : Option (Scal Int) :=
  (Yarr.eval (fun _ _ => none) y.expr yenv).bind fun a => a.asArr.bind (·.get? [])

/-- A summand that does not mention the counter is added once instead of once for every value of the counter:
`∑ c < x.size, (x[c] * x[c] + 1)` is `3 * 3 + 1 * 1 + 2 * 2 + 3 = 17` for `x = [3, 1, 2]`, the compiled program
computes 15. -/
theorem C07_multiplicity_counterexample :
    let e := sum7 4 5 (dim (fs 0) 0) (op2 .add (op2 .multiply (at7 0 4) (at7 0 4)) one7)
    run Toy.noExt e env7 = some (.sc (.f 17)) ∧
      (einsum7 e).bind (number7 · arrays7) = some (.f 15) := by
  constructor <;> decide +kernel

/-- A product that does not mention the counter at all: `∑ c < x.size, y[0] * y[1]`. -/
theorem C07_constant_product_counterexample :
    let e := sum7 4 5 (dim (fs 0) 0) (op2 .multiply (Phi.get (fs 1) (int 0)) (Phi.get (fs 1) (int 1)))
    run Toy.noExt e env7 = some (.sc (.f 105)) ∧
      (einsum7 e).bind (number7 · arrays7) = some (.f 35) := by
  constructor <;> decide +kernel

/-- `s = ∑ j < y.size, y[j] * x[c]` -/
def inner7 : Expr Int := sum7 6 7 (dim (fs 1) 0) (op2 .multiply (at7 1 6) (at7 0 4))

/-- If a summation occurs both as a summand and inside a factor, then the factor, too, is changed where it mentions
the counter of the summation, and is summed over. In `∑ c < x.size, (s + min(s, 100) * x[c])` with
`s = ∑ j < y.size, y[j] * x[c]` the second summand is `∑ c, ∑ j, min(2 * y[j] * x[c], 100) * x[c]` in the compiled
program. (The passes before the compiler share `s` in a `let`, where the fold is no longer a summation; without
them the program is compiled like this.) -/
theorem C07_capture_counterexample :
    let e := sum7 4 5 (dim (fs 0) 0) (op2 .add inner7 (op2 .multiply (op2 .min inner7 hundred) (at7 0 4)))
    run Toy.noExt e env7 = some (.sc (.f 240)) ∧
      (einsum7 e).bind (number7 · arrays7) ≠ some (.f 240) ∧ ((einsum7 e).bind (number7 · arrays7)).isSome = true := by
  refine ⟨?_, ?_, ?_⟩ <;> decide +kernel

/-- `match_summation` does not check that the element does not mention the accumulator: the compiled code mentions a
variable that nothing binds. -/
theorem C07_accumulator_counterexample :
    let e := sum7 4 5 (dim (fs 0) 0) (op2 .multiply (op2 .add (var 5 (.scalar .float)) one7) (at7 0 4))
    run Toy.noExt e env7 = some (.sc (.f 23)) ∧ (einsum7 e).isSome = true ∧
      (einsum7 e).bind (number7 · arrays7) = none := by
  refine ⟨?_, ?_, ?_⟩ <;> decide +kernel

end Verif.Props
