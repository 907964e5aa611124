import Verif.Codegen.Reduction
import Verif.Props.C01

/-!
# C06: folds turned into bulk reductions keep their sequential meaning

With `use_reductions` (the default) the compiler replaces a fold `fold c in range(n), a = z: a ⊕ elem` by
`z ⊕ reduce(⊕, elems)`, where `elems` is the comprehension `[elem at i | i < n]` (`match_reduction`,
`phi_to_yarr.py:399-428`); `⊕` is `+`, minimum or maximum.

The specification: `run` on the fold is the loop that starts with `z` and executes the body for
`c = 0, …, n - 1`; `bulkOf` combines `z` with the reduction of a list of elements.
-/

namespace Verif.Props
open Verif.Codegen Verif.Phi Verif.Term Verif.Yarr Verif.Arr
variable {F : Type} [DecidableEq F] [FloatOps F] [AssocFloat F]

/-- What the compiler takes for granted about a fold that it lowers: the element does not mention the
accumulator, the new index `i` is new, and no binder inside the element binds the counter again. The
program does not check the first (see `C06_accumulator_counterexample`). -/
structure Reducible (c a i : Nat) (b elem : Expr F) (k : RedKind) : Prop where
  body : matchReductionByBody b a = some (elem, k)
  closed : Scoped elem
  acc : Sym.var a ∉ fv elem
  distinct : a ≠ c
  new : Sym.idx i ∉ fv elem
  newBinder : Sym.idx i ∉ binders elem
  counter : Sym.var c ∉ binders elem

/-- C06, values: executing the fold step by step gives the same value as combining the initial value with the
bulk reduction of all elements. For the sum of floats this is so for every count, for minima and maxima for
every positive count (see `C06_empty_minimum_counterexample`). Both sides are undefined together. -/
theorem C06_bulk_reduction_partial (I : Ext F) (c a i : Nat) (n z b elem : Expr F) (k : RedKind)
    (h : Reducible c a i b elem k) (env : Env (D F))
    (hm : ∀ m, run I n env = some (.int m) → 0 < m ∨ (k = .add ∧ ∃ x, run I z env = some (.sc (.f x)))) :
    run I (fold c a n z b) env = bulkOf k (run I z env) (run I (elemsOf c n elem i) env) :=
  run_reduction I h.body h.closed h.acc h.distinct h.new h.counter h.newBinder env hm

omit [FloatOps F] [AssocFloat F] in
/-- C06, which folds: a fold becomes a reduction if and only if its initial value is a float that mentions no index,
its body adds an element to the accumulator or takes the minimum or maximum with it (`matchReductionByBody`), and the
elements would not need more memory than there is (`considerate`). All other folds stay loops. -/
theorem C06_which_folds (equiv : Expr F → Expr F → Bool) (i c a : Nat) (n z b : Expr F) :
    (bulkPlan equiv i c a n z b).isSome = true ↔
      Phi.typeOf z = some (.scalar .float) ∧ (∀ j, Sym.idx j ∉ fv z) ∧
        ∃ elem k, matchReductionByBody b a = some (elem, k) ∧ considerate equiv c n elem = true := by
  have hz : freeIndices z = ∅ ↔ ∀ j, Sym.idx j ∉ fv z := by
    unfold freeIndices
    rw [Finset.filter_eq_empty_iff]
    refine ⟨fun h j hj => h hj rfl, fun h s hs hi => ?_⟩
    cases s with
    | idx j => exact h j hs
    | var v => cases hi
  unfold bulkPlan
  rw [← hz]
  split
  · rename_i h
    rcases hm : matchReductionByBody b a with _ | ⟨elem, k⟩
    · simp
    · dsimp only
      split <;> simp_all
  · rename_i h
    constructor
    · intro h'; cases h'
    · rintro ⟨h1, h2, -⟩; exact absurd ⟨h1, h2⟩ h

/-- C06, code inside comprehensions: if the compiler's code for the comprehension of the elements and for the
initial value means what it should, and the fold has a value for every assignment of the indices in scope, then
so does the code to which the fold is lowered: for every assignment `ρ` it holds the value of the loop. -/
theorem C06_lowered_code_partial (I : Ext F) (J : YExt F) (yenv : Env (YVal F)) (S : Nat → Prop) (σ : Nat → Nat)
    (equiv : Expr F → Expr F → Bool) (go : Expr F → Option (Axial F)) (c a i : Nat) (n z b elem : Expr F)
    (k : RedKind) (y : Axial F) (env : (Nat → Nat) → Env (D F)) (h : Reducible c a i b elem k)
    (hy : matchReduction equiv go i c a n z b = some (some y)) (hσ : Positive S σ)
    (he : ∀ x, go (elemsOf c n elem i) = some x → Means J yenv S σ x fun ρ => run I (elemsOf c n elem i) (env ρ))
    (hz : ∀ x, go z = some x → Means J yenv S σ x fun ρ => run I z (env ρ))
    (hn : ∀ ρ, Valid S σ ρ → ∀ m, run I n (env ρ) = some (.int m) → 0 < m)
    (hv : ∀ ρ, Valid S σ ρ → ∃ w, run I (fold c a n z b) (env ρ) = some w) :
    Means J yenv S σ y fun ρ => run I (fold c a n z b) (env ρ) := by
  unfold matchReduction at hy
  split at hy
  · rw [h.body] at hy
    dsimp only at hy
    split at hy
    · obtain ⟨x, hx, hy⟩ := Option.bind_eq_some_iff.1 (Option.some.inj hy)
      obtain ⟨w, hw, hy⟩ := Option.bind_eq_some_iff.1 hy
      have key : ∀ ρ, Valid S σ ρ → run I (fold c a n z b) (env ρ) =
          bulkOf k (run I z (env ρ)) (run I (elemsOf c n elem i) (env ρ)) := fun ρ hρ =>
        C06_bulk_reduction_partial I c a i n z b elem k h (env ρ) fun m hm => .inl (hn ρ hρ m hm)
      obtain ⟨h1, as, ss, h2, h3⟩ := means_reduction (he x hx) (hz w hw) hσ hy fun ρ hρ => by
        rw [← key ρ hρ]; exact hv ρ hρ
      refine ⟨h1, as, ss, h2, fun ρ hρ => ?_⟩
      obtain ⟨w, h4, h5⟩ := h3 ρ hρ
      exact ⟨w, (key ρ hρ).trans h4, h5⟩
    · cases hy
  · cases hy

/-- C06, programs: let the comprehension of the elements and the initial value be in the setting of C01. The
array program to which the fold is lowered evaluates to an array that represents the value `v` which the fold
has when executed step by step. -/
theorem C06_lowered_program_partial (o : Opts F) (I : Ext F) (J : YExt F) (hJ : Vectorises I J) (fuel : Nat)
    (equiv : Expr F → Expr F → Bool) (c a i : Nat) (n z b elem : Expr F) (k : RedKind) (S : Finset Sym) (Γ : TCtx)
    (τ σ : Ty) (env : Env (D F)) (yenv : Env (YVal F)) (es zv v : D F) (ye yz : YExpr F) (y : Axial F)
    (h : Reducible c a i b elem k) (he : Setting o I fuel (elemsOf c n elem i) S Γ τ env yenv es ye)
    (hz : Setting o I fuel z S Γ σ env yenv zv yz)
    (hy : matchReduction equiv (compile (evenPairs o) fuel (fun _ => none) (fun _ => [])) i c a n z b = some (some y))
    (hv : run I (fold c a n z b) env = some v) :
    ∃ as, y.axes = [] ∧ Yarr.eval J y.expr yenv = some (pack as) ∧ Represents v as := by
  have hno : ∀ i, Sym.idx i ∉ S := by
    intro i hi
    obtain ⟨x, hx⟩ := he.inputs _ hi
    cases hx
  have hre := check_run _ _ _ _ he.value
  have hrz := check_run _ _ _ _ hz.value
  obtain ⟨h1, as, ss, h2, h3⟩ := C06_lowered_code_partial I J yenv (fun i => Sym.idx i ∈ S) (fun _ => 0) equiv _ c a i
    n z b elem k y (fun _ => env) h hy (fun i hi => absurd hi (hno i))
    (fun x hx => by simpa only [hre] using he.means hJ hx) (fun x hx => by simpa only [hrz] using hz.means hJ hx)
    (fun _ _ m hm => by
      have h4 := he.value
      unfold elemsOf vec at h4
      rw [check_node _ _ _ _ _ rfl] at h4
      simp only [List.map, checkDen] at h4
      obtain ⟨m', h5, h4⟩ := Option.bind_eq_some_iff.1 h4
      obtain ⟨w, h6, h5⟩ := Option.bind_eq_some_iff.1 h5
      cases (check_run _ _ _ _ h6).symm.trans hm
      cases h5
      by_contra h0
      rw [if_neg h0] at h4
      cases h4) (fun _ _ => ⟨v, hv⟩)
  have hax : y.axes = [] := by
    cases hl : y.axes with
    | nil => rfl
    | cons j l => exact absurd (h1 j (by simp [hl])) (hno j)
  refine ⟨as, hax, h2.value, ?_⟩
  obtain ⟨w, h4, h5⟩ := h3 (fun _ => 0) fun i hi => absurd hi (hno i)
  cases hv.symm.trans h4
  have hs := h2.shape
  rw [hax] at h5 hs
  rw [views_nil (by simpa using hs)] at h5
  exact h5

/-! ### Non-vacuity -/

instance : AssocFloat Int where
  add_assoc := Int.add_assoc
  add_comm := Int.add_comm
  add_zero := Int.add_zero
  min_assoc := min_assoc
  min_comm := min_comm
  max_assoc := max_assoc
  max_comm := max_comm

/-- A vector of floats. -/
def fs (v : Nat) : Expr Int := var v (.vector (.scalar .float))

/-- The accumulator of the examples. -/
def acc6 : Expr Int := var 5 (.scalar .float)

/-- The float 100. -/
def hundred : Expr Int := node (.const (.sc (.f 100)) (.scalar .float)) []

/-- The element `x[c] * x[0]` -/
def elem6 : Expr Int := op2 .multiply (Phi.get (fs 0) (var 4 (.scalar .int))) (Phi.get (fs 0) (int 0))

/-- A vector of floats as a value. -/
def floats (l : List Int) : D Int := .vec (l.map fun x => .sc (.f x))

/-- Values and arrays of `x`. -/
def env6 : Env (D Int) := Toy.envOf [(0, floats [3, 1, 2])]
def arrays6 : Env (YVal Int) := yenvOf [(0, vecArr [.f 3, .f 1, .f 2])]

/-- Sizes are known to be equal. -/
def same6 : Expr Int → Expr Int → Bool := fun _ _ => true

/-- The compiler of the examples. -/
def go6 : Expr Int → Option (Axial Int) := compile (evenPairs allReads) 20 (fun _ => none) (fun _ => [])

/-- `fold(λ c acc. acc + x[c] * x[0], x.size, 100)` and the same with the minimum. -/
example : Reducible 4 5 6 (op2 .add acc6 elem6) elem6 .add :=
  ⟨by decide +kernel, by decide +kernel, by decide +kernel, by decide, by decide +kernel, by decide +kernel,
    by decide +kernel⟩

theorem reducible6 : Reducible 4 5 6 (op2 .min elem6 acc6) elem6 .minimum :=
  ⟨by decide +kernel, by decide +kernel, by decide +kernel, by decide, by decide +kernel, by decide +kernel,
    by decide +kernel⟩

example : run Toy.noExt (fold 4 5 (dim (fs 0) 0) hundred (op2 .add acc6 elem6)) env6 = some (.sc (.f 118)) := by
  decide +kernel

theorem represents_floats (l : List Int) (h : l ≠ []) : Represents (floats l) [vecArr (l.map .f)] := by
  refine ⟨_, _, rfl, ?_, _, rfl, by simp, ?_⟩
  · simp; exact List.length_pos_iff.2 h
  · intro i w hw
    simp only [List.getElem?_map, Option.map_eq_some_iff] at hw
    obtain ⟨n, hn, rfl⟩ := hw
    refine ⟨_, rfl, ?_⟩
    have hi : i < l.length := (List.getElem?_eq_some_iff.1 hn).1
    obtain ⟨_, hn⟩ := List.getElem?_eq_some_iff.1 hn
    simp [vecArr, NArr.get?, InRange, hi, ravel, hn]

theorem hasType_floats (l : List Int) : HasType (floats l) (.vector (.scalar .float)) := by
  refine .vec fun w hw => ?_
  obtain ⟨n, _, rfl⟩ := List.mem_map.1 hw
  exact .sc (.f n)

/-- The setting of C01, for programs with the input `x`. -/
theorem setting6 (p : Expr Int) (τ : Ty) (hl : lexical p {.var 0} = true) (ht : Phi.typeOf p = some τ)
    (hd : Phi.Declared Toy.noExt p (ctxOf [(0, .vector (.scalar .float))]))
    (hy : (compileProgram (evenPairs allReads) 20 p).isSome = true)
    (hv : (check allReads Toy.noExt false p (fun _ => 0) env6).isSome = true) :
    ∃ v y, Setting allReads Toy.noExt 20 p {.var 0} (ctxOf [(0, .vector (.scalar .float))]) τ env6 arrays6 v y := by
  obtain ⟨y, hy⟩ := Option.isSome_iff_exists.1 hy
  obtain ⟨v, hv⟩ := Option.isSome_iff_exists.1 hv
  refine ⟨v, y, ?_, hl, ht, hd, ?_, ?_, hv, hy, .loops fun _ _ _ _ _ => rfl⟩
  · intro s hs
    exact ⟨0, Finset.mem_singleton.1 hs⟩
  · intro s τ h
    cases s with
    | idx i => cases h
    | var x =>
      by_cases h0 : x = 0
      · subst h0; cases h; exact ⟨_, rfl, hasType_floats _⟩
      · have : ctxOf [(0, .vector (.scalar .float))] (.var x) = none := by
          simp [ctxOf, List.find?, Ne.symm h0]
        rw [this] at h; cases h
  · intro x hx
    simp only [Finset.mem_singleton, Sym.var.injEq] at hx
    subst hx
    exact ⟨_, _, rfl, rfl, represents_floats [3, 1, 2] (by simp)⟩

/-- The fold with the minimum is lowered, and the array program computes the value of the loop. -/
example : ∃ y as, matchReduction same6 go6 6 4 5 (dim (fs 0) 0) hundred (op2 .min elem6 acc6) = some (some y) ∧
    Yarr.eval (fun _ _ => none) y.expr arrays6 = some (pack as) ∧ Represents (.sc (.f 3)) as := by
  obtain ⟨es, ye, he⟩ := setting6 (elemsOf 4 (dim (fs 0) 0) elem6 6) _ (by decide +kernel)
    (show _ = some (.vector (.scalar .float)) by decide +kernel) (declB_declared _ _ _ (by decide +kernel))
    (by decide +kernel) (by decide +kernel)
  obtain ⟨zv, yz, hz⟩ := setting6 hundred _ (by decide +kernel)
    (show _ = some (.scalar .float) by decide +kernel) (declB_declared _ _ _ (by decide +kernel))
    (by decide +kernel) (by decide +kernel)
  obtain ⟨y, hy⟩ := Option.isSome_iff_exists.1 (show ((matchReduction same6 go6 6 4 5 (dim (fs 0) 0) hundred
    (op2 .min elem6 acc6)).bind id).isSome = true by decide +kernel)
  obtain ⟨y', hy, rfl⟩ := Option.bind_eq_some_iff.1 hy
  obtain ⟨as, -, h1, h2⟩ := C06_lowered_program_partial _ _ (fun _ _ => none) (vectorises_none _) _ same6 _ _ _ _ _ _ _ _ _ _ _ _ _ _ _ _ _
    _ _ _ reducible6 he hz hy (show _ = some (.sc (.f 3)) by decide +kernel)
  exact ⟨y, as, hy, h1, h2⟩

/-- The fold of the example becomes a reduction; it does not if it starts with `x[i]` instead. -/
example : (bulkPlan same6 6 4 5 (dim (fs 0) 0) hundred (op2 .min elem6 acc6)).isSome = true ∧
    (bulkPlan same6 6 4 5 (dim (fs 0) 0) (Phi.get (fs 0) (at_ 2)) (op2 .min elem6 acc6)).isSome = false := by
  decide +kernel

/-! ### Where it fails -/

/-- `match_reduction` does not check that the element does not mention the accumulator. The fold
`fold(λ c acc. acc + acc * x[c], x.size, 100)` is lowered as well, to code that mentions a variable that
nothing binds: it has no value, while the loop has. -/
theorem C06_accumulator_counterexample :
    ∃ y, matchReduction same6 go6 6 4 5 (dim (fs 0) 0) hundred
        (op2 .add acc6 (op2 .multiply acc6 (Phi.get (fs 0) (var 4 (.scalar .int))))) = some (some y) ∧
      Yarr.eval (fun _ _ => none) y.expr arrays6 = none ∧
      run Toy.noExt (fold 4 5 (dim (fs 0) 0) hundred
        (op2 .add acc6 (op2 .multiply acc6 (Phi.get (fs 0) (var 4 (.scalar .int)))))) env6 = some (.sc (.f 2400)) := by
  obtain ⟨y, hy⟩ := Option.isSome_iff_exists.1 (show ((matchReduction same6 go6 6 4 5 (dim (fs 0) 0) hundred
    (op2 .add acc6 (op2 .multiply acc6 (Phi.get (fs 0) (var 4 (.scalar .int)))))).bind id).isSome = true by decide +kernel)
  have he : (((matchReduction same6 go6 6 4 5 (dim (fs 0) 0) hundred
    (op2 .add acc6 (op2 .multiply acc6 (Phi.get (fs 0) (var 4 (.scalar .int)))))).bind id).bind fun y =>
      Yarr.eval (fun _ _ => none) y.expr arrays6) = none := by decide +kernel
  rw [hy] at he
  obtain ⟨y', hy, rfl⟩ := Option.bind_eq_some_iff.1 hy
  exact ⟨y, hy, he, by decide +kernel⟩

/-- The compiler of the examples, when it knows that the new index ranges over the positions of the vector. -/
def goElided : Expr Int → Option (Axial Int) :=
  compile (evenPairs { allReads with equiv := fun _ _ => true }) 20 (fun _ => none) (fun _ => [])

/-- The minimum over an empty range: the loop returns the initial value, while the reduction of an empty array
has no value. -/
theorem C06_empty_minimum_counterexample :
    ∃ y, matchReduction same6 goElided 6 4 5 (dim (fs 0) 0) hundred
        (op2 .min acc6 (Phi.get (fs 0) (var 4 (.scalar .int)))) = some (some y) ∧
      Yarr.eval (fun _ _ => none) y.expr (yenvOf [(0, vecArr [])]) = none ∧
      run Toy.noExt (fold 4 5 (dim (fs 0) 0) hundred
        (op2 .min acc6 (Phi.get (fs 0) (var 4 (.scalar .int))))) (Toy.envOf [(0, floats [])]) =
        some (.sc (.f 100)) := by
  obtain ⟨y, hy⟩ := Option.isSome_iff_exists.1 (show ((matchReduction same6 goElided 6 4 5 (dim (fs 0) 0) hundred
    (op2 .min acc6 (Phi.get (fs 0) (var 4 (.scalar .int))))).bind id).isSome = true by decide +kernel)
  have he : (((matchReduction same6 goElided 6 4 5 (dim (fs 0) 0) hundred
    (op2 .min acc6 (Phi.get (fs 0) (var 4 (.scalar .int))))).bind id).bind fun y =>
      Yarr.eval (fun _ _ => none) y.expr (yenvOf [(0, vecArr [])])) = none := by decide +kernel
  rw [hy] at he
  obtain ⟨y', hy, rfl⟩ := Option.bind_eq_some_iff.1 hy
  exact ⟨y, hy, he, by decide +kernel⟩

/-- The sum over an empty range agrees. -/
example : ((matchReduction same6 goElided 6 4 5 (dim (fs 0) 0) hundred
    (op2 .add acc6 (Phi.get (fs 0) (var 4 (.scalar .int))))).bind id).bind (fun y =>
      (Yarr.eval (fun _ _ => none) y.expr (yenvOf [(0, vecArr [])])).bind fun a => a.asArr.bind (·.get? [])) =
    some (.f 100) := by decide +kernel

end Verif.Props
