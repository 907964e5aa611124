import Verif.Codegen.Decl
import Verif.Codegen.Typed
import Verif.Codegen.Planned
import Verif.Props.C29

/-!
# C01: compiled array programs compute the pointwise meaning

The specification has two parts.
* What a program means: the reference interpreter `run` (`Verif/Phi/Sem.lean`), which evaluates the body of
  a comprehension separately for every value of its index, and clamps positions of reads.
* When arrays represent a value: `Reps` and `RepsAll` (`Verif/Codegen/Reps.lean`).

The compiler takes some things for granted; `check` (`Verif/Codegen/Checked.lean`) is the reference
interpreter that stops where they do not hold: comprehensions of size 0, constants that are ragged, reads
compiled to slices with an end outside of the array (see the counterexamples in C03), reads dropped although
the sizes are different (see C12), reductions for which the order of evaluation matters (it does not for monoids, see
`C01_reduce_condition_monoid`) and calls of external functions on operands of different ranks; for folds that are compiled to `einsum` or to a reduction, what
`checkPlan` asks.
-/

namespace Verif.Props
open Verif.Codegen Verif.Phi Verif.Term Verif.Yarr Verif.Arr
variable {F : Type} [FloatOps F]

omit [FloatOps F] in
/-- The arrays represent the value. -/
def Represents (v : D F) (as : List (A F)) : Prop := RepsAll v (as.map fun a => (a.shape, a.get?))

/-- Two lists of axes with the same members. -/
def sameAxes (a b : List Nat) : Bool := a.all (fun i => decide (i ∈ b)) && b.all (fun i => decide (i ∈ a))

theorem sameAxes_mem {a b : List Nat} (h : sameAxes a b = true) (i : Nat) : i ∈ a ↔ i ∈ b := by
  simp only [sameAxes, Bool.and_eq_true, List.all_eq_true, decide_eq_true_eq] at h
  exact ⟨h.1 i, h.2 i⟩

/-- The compiler, without an additional check on pairs. -/
def program (o : Opts F) : Opts F := { o with pairs := fun _ _ => true, strict := false }

/-- The compiler, refusing
* pairs of which the components depend on different indices;
* reductions where the axis of the batch is not the last axis of the body (see `C01_reduce_axes_counterexample`);
* in such a body, loops and concatenations that would have to be repeated along the axis of the batch, which has no
  entry in `index_sizes`. -/
def evenPairs (o : Opts F) : Opts F := { o with pairs := sameAxes, strict := true }

theorem _root_.Verif.Codegen.FoldsOk.evenPairs {o : Opts F} (h : FoldsOk o) : FoldsOk (evenPairs o) := by
  cases h with
  | loops h => exact .loops h
  | standard h1 h2 h3 h4 red ein equiv new h => exact .standard h1 h2 h3 h4 red ein equiv new h

omit [FloatOps F] in
theorem views_nil {as : List (A F)} {ss : List (List Nat)} (h : List.Forall₂ (fun (a : A F) s => a.shape = s) as ss)
    (ρ : Nat → Nat) : views [] ρ as ss = as.map fun a => (a.shape, a.get?) := by
  unfold views
  induction h with
  | nil => rfl
  | cons h1 _ ih => rw [List.zipWith_cons_cons, ih, List.map_cons, h1]; rfl

/-- The setting of C01: `p` is a well-typed program of type `τ` whose free variables are the inputs `S`, every
binder of which binds a new name; `env` holds values of the inputs, and `yenv` arrays that represent them; `p`
has the value `v` and is compiled to the array program `y`. -/
structure Setting (o : Opts F) (I : Ext F) (fuel : Nat) (p : Expr F) (S : Finset Sym) (Γ : TCtx) (τ : Ty)
    (env : Env (D F)) (yenv : Env (YVal F)) (v : D F) (y : YExpr F) : Prop where
  inputs : ∀ s ∈ S, ∃ x, s = .var x
  binders : lexical p S = true
  typed : Phi.typeOf p = some τ
  declared : Phi.Declared I p Γ
  values : EnvTyped Γ env
  arrays : ∀ x, Sym.var x ∈ S → ∃ w as, env (.var x) = some w ∧ yenv (.var x) = some (pack as) ∧ Represents w as
  value : check o I false p (fun _ => 0) env = some v
  code : compileProgram (evenPairs o) fuel p = some y
  folds : FoldsOk o

/-- The environments at the start, when there are only inputs. -/
theorem envRel_inputs (J : YExt F) {S : Finset Sym} {env : Env (D F)} {yenv : Env (YVal F)}
    (hS : ∀ s ∈ S, ∃ x, s = Sym.var x)
    (hin : ∀ x, Sym.var x ∈ S → ∃ w as, env (.var x) = some w ∧ yenv (.var x) = some (pack as) ∧ Represents w as) :
    EnvRel J S (fun _ => 0) (fun _ => none) (fun _ => []) (fun _ => env) yenv := by
  have hno : ∀ i, Sym.idx i ∉ S := by
    intro i hi
    obtain ⟨x, hx⟩ := hS _ hi
    cases hx
  exact
    { pos := fun i hi => absurd hi (hno i)
      size := fun i z hz => by cases hz
      idx := fun _ i hi => absurd hi (hno i)
      axes := fun v i hi => by cases hi
      var := fun u hu => by
        obtain ⟨w, as, h1, h2, h3⟩ := hin u hu
        have hf : ∀ as : List (A F), List.Forall₂ (fun (a : A F) s => a.shape = s) as (as.map NArr.shape) := by
          intro as
          induction as with
          | nil => exact .nil
          | cons a as ih => exact .cons rfl ih
        refine ⟨as, as.map NArr.shape, h2, hf as, fun ρ _ => ⟨w, h1, ?_⟩⟩
        rw [views_nil (hf as)]
        exact h3
      fresh := fun _ _ => rfl
      locl := fun _ _ _ => rfl }

/-- The code of the program holds its value. -/
theorem Setting.means {o : Opts F} {I : Ext F} {J : YExt F} (hJ : Vectorises I J) {fuel : Nat} {p : Expr F} {S : Finset Sym} {Γ : TCtx}
    {τ : Ty} {env : Env (D F)} {yenv : Env (YVal F)} {v : D F} {y : YExpr F}
    (h : Setting o I fuel p S Γ τ env yenv v y) {x : Axial F}
    (hx : compile (evenPairs o) fuel (fun _ => none) (fun _ => []) p = some x) :
    Means J yenv (fun i => Sym.idx i ∈ S) (fun _ => 0) x fun _ => some v := by
  obtain ⟨hS, hlex, hty, hd, henv, hin, hv, -, hf⟩ := h
  have hE := envRel_inputs J hS hin
  have hct : check (evenPairs o) I true p (fun _ => 0) env = some v := check_typed p Γ τ _ env v hd hty henv hv
  obtain ⟨h1, as, ss, h2, h3⟩ :=
    compile_correct (o := evenPairs o) (I := I) (J := J) (fun a b => sameAxes_mem) rfl (hf.evenPairs.plans I J) hJ fuel hE hlex (fun _ _ => ⟨v, hct⟩) hx
  refine ⟨h1, as, ss, h2, fun ρ hρ => ?_⟩
  obtain ⟨w, h4, h5⟩ := h3 ρ hρ
  exact ⟨w, hct.symm.trans h4, h5⟩

/-- The program is compiled to `y`, and `y` is simplified. -/
theorem Setting.compiled {o : Opts F} {I : Ext F} {fuel : Nat} {p : Expr F} {S : Finset Sym} {Γ : TCtx}
    {τ : Ty} {env : Env (D F)} {yenv : Env (YVal F)} {v : D F} {y : YExpr F}
    (h : Setting o I fuel p S Γ τ env yenv v y) :
    compileProgram (program o) fuel p = some y ∧ ∃ r, simplifyArrayCode y = some r ∧
      ∀ (J : YExt F) env w, Yarr.eval J y env = some w → Yarr.eval J r env = some w := by
  have hy := h.code
  simp only [compileProgram, Option.bind_eq_some_iff] at hy
  obtain ⟨x, hx, hy⟩ := hy
  have hax : x.expr = y := by
    unfold Axial.normal at hy
    split at hy
    · cases hy; rfl
    · cases hy
  subst hax
  obtain ⟨τ', hτ'⟩ := compile_typed _ _ _ _ hx
  obtain ⟨r, hr, -, -⟩ := C29_simplification_preserves_value (fun _ _ => none) x.expr τ' hτ'
  refine ⟨?_, r, hr, fun J env w hw => ?_⟩
  · have : OptsLe (evenPairs o) (program o) := ⟨rfl, rfl, rfl, rfl, fun _ _ _ => rfl, rfl, rfl, fun _ => rfl⟩
    simp only [compileProgram, compile_mono this le_rfl _ _ _ _ hx, Option.bind_some, hy]
  · obtain ⟨r', hr', -, hev⟩ := C29_simplification_preserves_value J x.expr τ' hτ'
    rw [hr] at hr'
    cases hr'
    exact hev _ _ hw

/-- C01: the array program `y` to which `p` is compiled evaluates to arrays that represent the value of `p`,
and so does the array program `r` to which `y` is simplified.

External functions `J` on arrays are vectorised versions of the functions `I` on values (`Vectorises`; see C36).

What is missing: the components of pairs inside comprehensions depend on the same indices, and the axis of the batch is
the last one in the body of a reduction (`evenPairs`, see the counterexamples below and in `C01Reduce.lean`); the conditions of `check`; in-place updates are off (C20). The options `use_einsum` and
`use_reductions` may be on if arithmetic on floats is exact (`FoldsOk`; see C06 and C07 for what happens if it is
not). -/
theorem C01_compiled_meaning_partial (o : Opts F) (I : Ext F) (J : YExt F) (hJ : Vectorises I J) (fuel : Nat) (p : Expr F) (S : Finset Sym)
    (Γ : TCtx) (τ : Ty) (env : Env (D F)) (yenv : Env (YVal F)) (v : D F) (y : YExpr F)
    (h : Setting o I fuel p S Γ τ env yenv v y) :
    compileProgram (program o) fuel p = some y ∧ run I p env = some v ∧
      ∃ as r, Yarr.eval J y yenv = some (pack as) ∧ Represents v as ∧
        simplifyArrayCode y = some r ∧ Yarr.eval J r yenv = some (pack as) := by
  have hm := fun {x} => h.means hJ (x := x)
  have hcomp := h.compiled
  obtain ⟨hS, hlex, hty, hd, henv, hin, hv, hy, -⟩ := h
  simp only [compileProgram, Option.bind_eq_some_iff] at hy
  obtain ⟨x, hx, hy⟩ := hy
  have hno : ∀ i, Sym.idx i ∉ S := by
    intro i hi
    obtain ⟨x, hx⟩ := hS _ hi
    cases hx
  obtain ⟨-, as, ss, hcode, hval⟩ := hm hx
  have hax : x.axes = [] ∧ x.expr = y := by
    unfold Axial.normal at hy
    split at hy
    · cases hy; exact ⟨by assumption, rfl⟩
    · cases hy
  obtain ⟨hax, rfl⟩ := hax
  obtain ⟨hy', r, hr, hev⟩ := hcomp
  refine ⟨hy', check_run _ _ _ _ hv, as, r, hcode.value, ?_, hr, hev _ _ _ hcode.value⟩
  · obtain ⟨w, h1, h2⟩ := hval (fun _ => 0) (fun i hi => absurd hi (hno i))
    cases h1
    have hs := hcode.shape
    rw [hax] at h2 hs
    rw [views_nil (by simpa using hs)] at h2
    exact h2

/-! ### Element by element -/

/-- Nested comprehensions: indices with their sizes, and a body. -/
def comprehensions : List (Nat × Expr F) → Expr F → Expr F
  | [], b => b
  | (i, n) :: l, b => vec i n (comprehensions l b)

omit [FloatOps F] in
/-- The environment in which the body is evaluated for the element at the position `ix`. -/
def atElement : List (Nat × Expr F) → List Nat → Env (D F) → Env (D F)
  | (i, _) :: l, k :: ix, env => atElement l ix (env.set (.idx i) (some (.int k)))
  | _, _, env => env

/-- If an array represents the value of nested comprehensions, then its part at the position `ix` of the
comprehensions represents the value of the body with the indices at `ix`. -/
theorem C01_parts (I : Ext F) (l : List (Nat × Expr F)) (b : Expr F) (env : Env (D F)) (v : D F)
    (s s' : List Nat) (f : List Nat → Option (Scal F)) (hv : run I (comprehensions l b) env = some v)
    (hf : Reps (s ++ s') f v) (hl : s.length = l.length) :
    ∀ ix, InRange s ix → ∃ w, run I b (atElement l ix env) = some w ∧ Reps s' (fun jx => f (ix ++ jx)) w := by
  induction l generalizing env v s f with
  | nil =>
    intro ix hix
    obtain rfl : s = [] := List.length_eq_zero_iff.1 hl
    have : ix = [] := by cases ix <;> simp_all [InRange]
    subst this
    exact ⟨v, hv, hf⟩
  | cons q l ih =>
    obtain ⟨i, n⟩ := q
    cases s with
    | nil => simp at hl
    | cons d s =>
      intro ix hix
      cases ix with
      | nil => simp [InRange] at hix
      | cons k ix =>
        obtain ⟨hk, hix⟩ := inRange_cons.1 hix
        obtain ⟨_, vs, rfl, hlen, hf⟩ := hf
        simp only [comprehensions, vec, run_node, List.map, runDen, vecOf, Option.bind_eq_some_iff] at hv
        obtain ⟨m, _, ws, hws, hv⟩ := hv
        split at hv
        · cases hv
          have hk' : k < vs.length := by omega
          have hg : vs[k]? = some vs[k] := List.getElem?_eq_getElem hk'
          have hb : run I (comprehensions l b) (env.set (.idx i) (some (.int k))) = some vs[k] := by
            have := mapOpt_eq_forall hws
            have hkm : k < (List.range m.toNat).length := by rw [this.length_eq]; exact hk'
            have h3 := List.forall₂_iff_get.1 this
            simpa using h3.2 k hkm hk'
          exact ih _ _ s (fun jx => f (k :: jx)) hb (hf k _ hg) (by simpa using hl) ix hix
        · cases hv

omit [FloatOps F] in
theorem typeOf_comprehensions (l : List (Nat × Expr F)) (b : Expr F) {τ σ : Ty} {q : Phi.Arr}
    (h : Phi.typeOf (comprehensions l b) = some τ) (hb : Phi.typeOf b = some σ) (hq : Phi.prim σ = some [q]) :
    Phi.prim τ = some [⟨l.length + q.rank, q.kind⟩] := by
  induction l generalizing τ with
  | nil =>
    have := h.symm.trans hb
    cases this
    simpa using hq
  | cons q l ih =>
    obtain ⟨i, n⟩ := q
    obtain ⟨σ, hσ⟩ := typeOf_child h (comprehensions l b) (by simp)
    simp only [comprehensions, vec] at h
    rw [Phi.typeOf_node] at h
    simp only [List.map, hσ] at h
    have hp := ih hσ
    generalize Phi.typeOf n = tn at h
    rcases tn with _ | ((_ | _ | _) | _ | _) <;> simp only [Phi.typeStep] at h <;> try cases h
    split at h
    · cases h
      simp [Phi.prim, hp, Phi.single, Arr.lift]
      omega
    · cases h

/-- C01, part by part: nested comprehensions over indices `l` with a body `b` of array type compile to code
for one array `a`. Its shape is that of the comprehensions followed by one for the body, and its part at every
position `ix` of the comprehensions represents the value of the body when the indices have the values `ix`. -/
theorem C01_comprehension_parts_partial (o : Opts F) (I : Ext F) (J : YExt F) (hJ : Vectorises I J) (fuel : Nat) (l : List (Nat × Expr F))
    (b : Expr F) (q : Phi.Arr) (S : Finset Sym) (Γ : TCtx) (τ σ : Ty) (env : Env (D F)) (yenv : Env (YVal F)) (v : D F)
    (y : YExpr F) (hb : Phi.typeOf b = some σ) (hq : Phi.prim σ = some [q])
    (h : Setting o I fuel (comprehensions l b) S Γ τ env yenv v y) :
    ∃ (a : A F) (s s' : List Nat), Yarr.eval J y yenv = some (.arr a) ∧ a.shape = s ++ s' ∧ s.length = l.length ∧
      s'.length = q.rank ∧ ∀ ix, InRange s ix → ∃ w, run I b (atElement l ix env) = some w ∧
        Reps s' (fun jx => a.get? (ix ++ jx)) w := by
  obtain ⟨-, hrun, as, r, h1, h2, -, -⟩ := C01_compiled_meaning_partial o I J hJ fuel _ S Γ τ env yenv v y h
  have ht := C14_type_soundness I _ Γ env τ h.typed h.declared h.values v hrun
  obtain ⟨p, hp, hl⟩ := h2.prim ht
  rw [typeOf_comprehensions l b h.typed hb hq] at hp
  cases hp
  simp only [List.map_map, List.map_cons, List.map_nil] at hl
  rcases as with _ | ⟨a, _ | ⟨_, _⟩⟩ <;> simp at hl
  have hr : Reps a.shape a.get? v := RepsAll.single.1 h2
  refine ⟨a, a.shape.take l.length, a.shape.drop l.length, h1, (List.take_append_drop _ _).symm,
    by rw [List.length_take]; omega, by rw [List.length_drop]; omega, ?_⟩
  refine C01_parts I l b env v _ _ a.get? hrun ?_ (by rw [List.length_take]; omega)
  rw [List.take_append_drop]; exact hr

/-- C01, element by element: nested comprehensions over indices `l` with a scalar body `b` compile to code for
one array with `l.length` axes, and its element at every position `ix` is the value of the body when the
indices have the values `ix`. -/
theorem C01_comprehensions_partial (o : Opts F) (I : Ext F) (J : YExt F) (hJ : Vectorises I J) (fuel : Nat) (l : List (Nat × Expr F))
    (b : Expr F) (k : Kind) (S : Finset Sym) (Γ : TCtx) (τ : Ty) (env : Env (D F)) (yenv : Env (YVal F)) (v : D F)
    (y : YExpr F) (hb : Phi.typeOf b = some (.scalar k))
    (h : Setting o I fuel (comprehensions l b) S Γ τ env yenv v y) :
    ∃ a : A F, Yarr.eval J y yenv = some (.arr a) ∧ a.shape.length = l.length ∧
      ∀ ix, InRange a.shape ix → ∃ c, a.get? ix = some c ∧ run I b (atElement l ix env) = some (.sc c) := by
  obtain ⟨a, s, s', h1, h2, h3, h4, h5⟩ := C01_comprehension_parts_partial o I J hJ fuel l b ⟨0, k⟩ S Γ τ _ env yenv v y hb
    rfl h
  obtain rfl : s' = [] := List.length_eq_zero_iff.1 h4
  rw [List.append_nil] at h2
  refine ⟨a, h1, by rw [h2]; exact h3, fun ix hix => ?_⟩
  rw [h2] at hix
  obtain ⟨w, h6, c, rfl, h7⟩ := h5 ix hix
  exact ⟨c, by simpa using h7, h6⟩

/-! ### Non-vacuity -/

/-- A setting from tests of its parts. -/
theorem Setting.of_inputs [DecidableEq F] {o : Opts F} {I : Ext F} {fuel : Nat} {p : Expr F} {τ : Ty} {v : D F} {y : YExpr F}
    (l : List (Nat × Ty × D F × A F)) (hl : inputsOk l = true) (hlex : lexical p (inputSyms l) = true)
    (hty : Phi.typeOf p = some τ) (hd : Phi.Declared I p (inputTypes l))
    (hv : check o I false p (fun _ => 0) (inputValues l) = some v)
    (hy : compileProgram (evenPairs o) fuel p = some y) (hf : FoldsOk o) :
    Setting o I fuel p (inputSyms l) (inputTypes l) τ (inputValues l) (inputArrays l) v y := by
  have hall : ∀ q ∈ l, HasType q.2.2.1 q.2.1 ∧ Reps q.2.2.2.shape q.2.2.2.get? q.2.2.1 := by
    intro q hq
    have := List.all_eq_true.1 hl q hq
    rw [Bool.and_eq_true] at this
    exact ⟨hasTy_iff.1 this.1, repsB_reps this.2⟩
  refine ⟨?_, hlex, hty, hd, ?_, ?_, hv, hy, hf⟩
  · intro s hs
    obtain ⟨q, -, rfl⟩ := List.mem_map.1 (List.mem_toFinset.1 hs)
    exact ⟨_, rfl⟩
  · intro s τ h
    cases s with
    | idx i => cases h
    | var x =>
      simp only [inputTypes, ctxOf, List.find?_map, Option.map_map, Option.map_eq_some_iff, Function.comp_def] at h
      obtain ⟨q, hq, rfl⟩ := h
      exact ⟨_, by simp only [inputValues]; rw [hq]; rfl, (hall q (List.mem_of_find?_eq_some hq)).1⟩
  · intro x hx
    obtain ⟨q, hq, e⟩ := List.mem_map.1 (List.mem_toFinset.1 hx)
    cases e
    obtain ⟨r, hr⟩ : ∃ r, l.find? (fun p => p.1 = q.1) = some r := by
      rw [← Option.isSome_iff_exists, List.find?_isSome]
      exact ⟨q, hq, by simp⟩
    refine ⟨r.2.2.1, [r.2.2.2], by simp only [inputValues]; rw [hr]; rfl, ?_, ?_⟩
    · simp only [inputArrays, yenvOf, List.find?_map, Function.comp_def, Option.map_map]
      rw [hr]
      rfl
    · exact RepsAll.single.2 (hall r (List.mem_of_find?_eq_some hr)).2

/-- All lowerings of reads, and an answer of `size_class` that is always "unknown". -/
def allReads : Opts Int := { takes := true, slicePads := true, sliceElision := true, equiv := fun _ _ => false, pairs := fun _ _ => true }

/-- Vectors of integers. -/
def xs (v : Nat) : Expr Int := var v (.vector (.scalar .int))

/-- The body `x[i] + fold(λ k acc. y[j + k] + acc, 2, 0)`. -/
def blurBody : Expr Int :=
  op2 .add (Phi.get (xs 0) (at_ 2)) (fold 4 5 (int 2) (int 0)
    (op2 .add (Phi.get (xs 1) (op2 .add (at_ 3) (var 4 (.scalar .int)))) (var 5 (.scalar .int))))

/-- `array(λ i j. blurBody)` -/
def blur : Expr Int := comprehensions [(2, dim (xs 0) 0), (3, dim (xs 1) 0)] blurBody

/-- The types of `x` and `y`. -/
def blurCtx : TCtx := ctxOf [(0, .vector (.scalar .int)), (1, .vector (.scalar .int))]

/-- Values of `x` and `y`. -/
def blurEnv : Env (D Int) := Toy.envOf [(0, Toy.ints [10, 20]), (1, Toy.ints [1, 2, 3])]

/-- Arrays of `x` and `y`. -/
def blurArrays : Env (YVal Int) := yenvOf [(0, vecArr [.i 10, .i 20]), (1, vecArr [.i 1, .i 2, .i 3])]

theorem represents_ints (l : List Int) (h : l ≠ []) : Represents (Toy.ints l) [vecArr (l.map .i)] := by
  refine ⟨_, _, rfl, ?_, _, rfl, by simp, ?_⟩
  · simp; exact List.length_pos_iff.2 h
  · intro i w hw
    simp only [List.getElem?_map, Option.map_eq_some_iff] at hw
    obtain ⟨n, hn, rfl⟩ := hw
    refine ⟨_, rfl, ?_⟩
    have hi : i < l.length := (List.getElem?_eq_some_iff.1 hn).1
    obtain ⟨_, hn⟩ := List.getElem?_eq_some_iff.1 hn
    simp [vecArr, NArr.get?, InRange, hi, ravel, hn]

theorem hasType_ints (l : List Int) : HasType (Toy.ints l) (.vector (.scalar .int)) := by
  refine .vec fun w hw => ?_
  obtain ⟨n, _, rfl⟩ := List.mem_map.1 hw
  exact .sc (.i n)

/-- The inputs. -/
def blurInputs : Finset Sym := {.var 0, .var 1}

/-- The example is in the setting of C01. -/
theorem blur_setting : ∃ v y, Setting allReads Toy.noExt 20 blur blurInputs blurCtx (.vector (.vector (.scalar .int)))
    blurEnv blurArrays v y := by
  obtain ⟨y, hy⟩ := Option.isSome_iff_exists.1
    (show (compileProgram (evenPairs allReads) 20 blur).isSome = true by decide +kernel)
  obtain ⟨v, hv⟩ := Option.isSome_iff_exists.1
    (show (check allReads Toy.noExt false blur (fun _ => 0) blurEnv).isSome = true by decide +kernel)
  refine ⟨v, y, ?_, by decide +kernel, by decide +kernel, declB_declared _ _ _ (by decide +kernel), ?_, ?_, hv, hy,
    .loops fun _ _ _ _ _ => rfl⟩
  · intro s hs
    simp only [blurInputs, Finset.mem_insert, Finset.mem_singleton] at hs
    rcases hs with rfl | rfl <;> exact ⟨_, rfl⟩
  · intro s τ h
    cases s with
    | idx i => cases h
    | var x =>
      by_cases h0 : x = 0
      · subst h0; cases h; exact ⟨_, rfl, hasType_ints _⟩
      · by_cases h1 : x = 1
        · subst h1; cases h; exact ⟨_, rfl, hasType_ints _⟩
        · have : blurCtx (.var x) = none := by
            simp [blurCtx, ctxOf, List.find?, Ne.symm h0, Ne.symm h1]
          rw [this] at h; cases h
  · intro x hx
    simp only [blurInputs, Finset.mem_insert, Finset.mem_singleton, Sym.var.injEq] at hx
    rcases hx with rfl | rfl
    · exact ⟨_, _, rfl, rfl, represents_ints [10, 20] (by simp)⟩
    · exact ⟨_, _, rfl, rfl, represents_ints [1, 2, 3] (by simp)⟩

example : ∃ y, compileProgram (program allReads) 20 blur = some y ∧ ∃ a : A Int,
    Yarr.eval (fun _ _ => none) y blurArrays = some (.arr a) ∧ a.shape.length = 2 ∧
      ∀ ix, InRange a.shape ix → ∃ c, a.get? ix = some c ∧
        run Toy.noExt blurBody (atElement [(2, dim (xs 0) 0), (3, dim (xs 1) 0)] ix blurEnv) = some (.sc c) := by
  obtain ⟨v, y, h⟩ := blur_setting
  exact ⟨y, (C01_compiled_meaning_partial _ _ (fun _ _ => none) (vectorises_none _) _ _ _ _ _ _ _ _ _ h).1,
    C01_comprehensions_partial _ _ (fun _ _ => none) (vectorises_none _) _ [(2, dim (xs 0) 0), (3, dim (xs 1) 0)] blurBody .int _ _ _ _ _ _ _
      (by decide +kernel) h⟩

/-- The value in the example. -/
example : run Toy.noExt blur blurEnv = some (.vec [Toy.ints [13, 15, 16], Toy.ints [23, 25, 26]]) := by decide +kernel

/-! ### The condition on pairs is needed -/

/-- `array(λ i. fold(λ k (s, _). (s + x[i], k), 2, (0, 0))[1])` -/
def unevenPairs : Expr Int :=
  vec 2 (dim (xs 0) 0) (snd (fold 4 5 (int 2) (cons (int 0) (int 0))
    (cons (op2 .add (fst (var 5 (.pair (.scalar .int) (.scalar .int)))) (Phi.get (xs 0) (at_ 2)))
      (var 4 (.scalar .int)))))

/-- C01 fails for a pair in which only one component depends on an index: `Axial.cons` (`axial.py:85-97`)
aligns the other component with an axis of length 1, and the result has 1 element instead of 3. -/
theorem C01_pairs_counterexample :
    lexical unevenPairs {.var 0} = true ∧
    Phi.typeOf unevenPairs = some (.vector (.scalar .int)) ∧
    run Toy.noExt unevenPairs (Toy.envOf [(0, Toy.ints [7, 8, 9])]) = some (Toy.ints [1, 1, 1]) ∧
    (check allReads Toy.noExt false unevenPairs (fun _ => 0) (Toy.envOf [(0, Toy.ints [7, 8, 9])])) =
      some (Toy.ints [1, 1, 1]) ∧
    ((compileProgram (program allReads) 20 unevenPairs).bind fun y =>
      Yarr.eval (fun _ _ => none) y (yenvOf [(0, vecArr [.i 7, .i 8, .i 9])])) = some (.arr (vecArr [.i 1])) := by
  refine ⟨by decide +kernel, by decide +kernel, by decide +kernel, by decide +kernel, by decide +kernel⟩

end Verif.Props
