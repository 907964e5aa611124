import Verif.Props.C01

/-!
# C02: out-of-range reads are clamped the same way by every way of reading

The specification is `clamped`.
-/

namespace Verif.Props
open Verif.Codegen Verif.Phi Verif.Term Verif.Yarr Verif.Arr
variable {F : Type} [FloatOps F]

/-- The position `min (max e 0) (size - 1)`. -/
def clamped (size : Nat) (e : Int) : Nat := (min (max e 0) ((size : Int) - 1)).toNat

omit [FloatOps F] in
theorem get_clamped {vs : List (D F)} (h : vs ≠ []) (k : Int) : Val.get vs k = vs[clamped vs.length k]? := by
  have : 0 < vs.length := List.length_pos_iff.2 h
  unfold Val.get Val.clip clamped
  congr 1
  omega

/-- The interpreter: a read from a non-empty vector always succeeds, and gives the element at the clamped
position. -/
theorem C02_interpreter (I : Ext F) (t e : Expr F) (env : Env (D F)) (vs : List (D F)) (k : Int)
    (ht : run I t env = some (.vec vs)) (he : run I e env = some (.int k)) (hne : vs ≠ []) :
    ∃ w, vs[clamped vs.length k]? = some w ∧ run I (Phi.get t e) env = some w := by
  have hlt : clamped vs.length k < vs.length := by
    have : 0 < vs.length := List.length_pos_iff.2 hne
    unfold clamped; omega
  refine ⟨vs[clamped vs.length k], List.getElem?_eq_getElem hlt, ?_⟩
  rw [Phi.get, run_node]
  simp only [List.map, runDen, getOf, ht, he, Option.bind_some, Val.asVec, Val.asInt, Val.int, get_clamped hne,
    List.getElem?_eq_getElem hlt]

/-- C02: whichever way of reading the compiler chooses (a take, a gather, a slice with pads or nothing,
depending on the options `o` and on `t` and `e`), the compiled code of `array(λ ix. t[e])` has at every
position `ix` the element of `t` at the clamped position `e`. -/
theorem C02_compiled_partial (o : Opts F) (I : Ext F) (J : YExt F) (hJ : Vectorises I J) (fuel : Nat) (l : List (Nat × Expr F))
    (t e : Expr F) (q : Phi.Arr) (S : Finset Sym) (Γ : TCtx) (τ σ : Ty) (env : Env (D F)) (yenv : Env (YVal F)) (v : D F)
    (y : YExpr F) (hb : Phi.typeOf (Phi.get t e) = some σ) (hq : Phi.prim σ = some [q])
    (h : Setting o I fuel (comprehensions l (Phi.get t e)) S Γ τ env yenv v y) :
    ∃ (a : A F) (s s' : List Nat), Yarr.eval J y yenv = some (.arr a) ∧ a.shape = s ++ s' ∧ s.length = l.length ∧
      ∀ ix, InRange s ix → ∃ vs k w, run I t (atElement l ix env) = some (.vec vs) ∧
        run I e (atElement l ix env) = some (.int k) ∧ vs[clamped vs.length k]? = some w ∧
        Reps s' (fun jx => a.get? (ix ++ jx)) w := by
  obtain ⟨a, s, s', h1, h2, h3, -, h5⟩ := C01_comprehension_parts_partial o I J hJ fuel l _ q S Γ τ σ env yenv v y hb hq h
  refine ⟨a, s, s', h1, h2, h3, fun ix hix => ?_⟩
  obtain ⟨w, h6, h7⟩ := h5 ix hix
  rw [Phi.get, run_node] at h6
  obtain ⟨vs, k, h8, h9, h10⟩ := getOf_some h6
  refine ⟨vs, k, w, h8, h9, ?_, h7⟩
  rw [← get_clamped]
  · exact h10
  · rintro rfl
    simp [Val.get] at h10

/-! ### All choices give the same arrays -/

theorem reps_same {T : Type} {s t : List Nat} {f g : List Nat → Option T} {v : Val T} (h : Reps s f v) (h' : Reps t g v) :
    s = t ∧ ∀ ix, InRange s ix → f ix = g ix := by
  have hs := h.shape_eq h' rfl
  subst hs
  refine ⟨rfl, ?_⟩
  induction s generalizing f g v with
  | nil =>
    intro ix hix
    obtain ⟨x, rfl, h1⟩ := h
    obtain ⟨y, h2, h3⟩ := h'
    cases h2
    have : ix = [] := by cases ix <;> simp_all [InRange]
    subst this
    rw [h1, h3]
  | cons n s ih =>
    intro ix hix
    cases ix with
    | nil => simp [InRange] at hix
    | cons k ix =>
      obtain ⟨hk, hix⟩ := inRange_cons.1 hix
      obtain ⟨_, vs, rfl, h2, h3⟩ := h
      obtain ⟨_, vs', e, h4, h5⟩ := h'
      cases e
      have hg : vs[k]? = some vs[k] := List.getElem?_eq_getElem (by omega)
      exact ih (h3 k _ hg) (h5 k _ hg) ix hix

omit [FloatOps F] in
theorem repsAll_same {v : D F} {as bs : List (A F)} (h : Represents v as) (h' : Represents v bs) : as = bs := by
  unfold Represents at h h'
  induction v using Val.ind generalizing as bs with
  | pair a b iha ihb =>
    obtain ⟨l₁, l₂, e, h1, h2⟩ := h
    obtain ⟨m₁, m₂, e', h3, h4⟩ := h'
    obtain ⟨as₁, as₂, rfl, rfl, rfl⟩ := List.map_eq_append_iff.1 e
    obtain ⟨bs₁, bs₂, rfl, rfl, rfl⟩ := List.map_eq_append_iff.1 e'
    rw [iha h1 h3, ihb h2 h4]
  | sc _ | vec _ _ =>
    obtain ⟨s, f, e, h1⟩ := h
    obtain ⟨t, g, e', h2⟩ := h'
    rcases as with _ | ⟨a, _ | ⟨_, _⟩⟩ <;> simp at e
    rcases bs with _ | ⟨b, _ | ⟨_, _⟩⟩ <;> simp at e'
    obtain ⟨rfl, rfl⟩ := e
    obtain ⟨rfl, rfl⟩ := e'
    obtain ⟨h3, h4⟩ := reps_same h1 h2
    rw [NArr.ext_get? h3 h4]

/-- C02: for all programs, the options that choose between the ways of reading (`use_takes`,
`use_slice_pads`, `use_slice_elision`, and what is known about sizes) do not change the result. -/
theorem C02_options_agree_partial (o o' : Opts F) (I : Ext F) (J : YExt F) (hJ : Vectorises I J) (fuel fuel' : Nat) (p : Expr F) (S : Finset Sym)
    (Γ : TCtx) (τ : Ty) (env : Env (D F)) (yenv : Env (YVal F)) (v v' : D F) (y y' : YExpr F)
    (h : Setting o I fuel p S Γ τ env yenv v y) (h' : Setting o' I fuel' p S Γ τ env yenv v' y') :
    v = v' ∧ ∃ as, Yarr.eval J y yenv = some (pack as) ∧ Yarr.eval J y' yenv = some (pack as) := by
  obtain ⟨-, h1, as, r, h2, h3, -, -⟩ := C01_compiled_meaning_partial o I J hJ fuel p S Γ τ env yenv v y h
  obtain ⟨-, h1', as', r', h2', h3', -, -⟩ := C01_compiled_meaning_partial o' I J hJ fuel' p S Γ τ env yenv v' y' h'
  rw [h1] at h1'
  cases h1'
  rw [repsAll_same h3 h3'] at h2
  exact ⟨rfl, as', h2, h2'⟩

/-! ### Non-vacuity: three ways of reading `array(λ i. x[i - 1])` -/

/-- Only gathers. -/
def onlyGathers : Opts Int := { takes := false, slicePads := false, sliceElision := false, equiv := fun _ _ => false, pairs := fun _ _ => true }
/-- Takes where possible. -/
def withTakes : Opts Int := { takes := true, slicePads := false, sliceElision := false, equiv := fun _ _ => false, pairs := fun _ _ => true }

/-- `x[i - 1]` -/
def previous : Expr Int := Phi.get (xs 0) (op2 .subtract (at_ 2) (int 1))

theorem previous_setting (o : Opts Int) (ho : o ∈ [allReads, onlyGathers, withTakes]) :
    ∃ v y, Setting o Toy.noExt 20 (comprehensions [(2, dim (xs 0) 0)] previous) {.var 0}
      (ctxOf [(0, .vector (.scalar .int))]) (.vector (.scalar .int)) (Toy.envOf [(0, Toy.ints [7, 8, 9])])
      (yenvOf [(0, vecArr [.i 7, .i 8, .i 9])]) v y := by
  have hy : (compileProgram (evenPairs o) 20 (comprehensions [(2, dim (xs 0) 0)] previous)).isSome = true := by
    simp only [List.mem_cons, List.not_mem_nil, or_false] at ho
    rcases ho with rfl | rfl | rfl <;> decide +kernel
  have hv : (check o Toy.noExt false (comprehensions [(2, dim (xs 0) 0)] previous) (fun _ => 0)
      (Toy.envOf [(0, Toy.ints [7, 8, 9])])).isSome = true := by
    simp only [List.mem_cons, List.not_mem_nil, or_false] at ho
    rcases ho with rfl | rfl | rfl <;> decide +kernel
  obtain ⟨y, hy⟩ := Option.isSome_iff_exists.1 hy
  obtain ⟨v, hv⟩ := Option.isSome_iff_exists.1 hv
  have hf : FoldsOk o := by
    simp only [List.mem_cons, List.not_mem_nil, or_false] at ho
    rcases ho with rfl | rfl | rfl <;> exact .loops fun _ _ _ _ _ => rfl
  refine ⟨v, y, ?_, by decide +kernel, by decide +kernel, declB_declared _ _ _ (by decide +kernel), ?_, ?_, hv, hy, hf⟩
  · intro s hs
    exact ⟨0, by simpa using hs⟩
  · intro s τ h
    cases s with
    | idx i => cases h
    | var x =>
      by_cases h0 : x = 0
      · subst h0; cases h; exact ⟨_, rfl, hasType_ints _⟩
      · have : ctxOf [(0, .vector (.scalar .int))] (.var x) = none := by
          simp [ctxOf, List.find?, Ne.symm h0]
        rw [this] at h; cases h
  · intro x hx
    obtain rfl : x = 0 := by simpa using hx
    exact ⟨_, _, rfl, rfl, represents_ints [7, 8, 9] (by simp)⟩

/-- The three options compile the read to different code. -/
example :
    ((compileProgram (program allReads) 20 (comprehensions [(2, dim (xs 0) 0)] previous)).bind fun y =>
      (compileProgram (program withTakes) 20 (comprehensions [(2, dim (xs 0) 0)] previous)).bind fun y' =>
      (compileProgram (program onlyGathers) 20 (comprehensions [(2, dim (xs 0) 0)] previous)).bind fun y'' =>
      some (decide (y = y'), decide (y = y''), decide (y' = y''))) = some (false, false, false) := by decide +kernel

/-- The value: the element before the first one is the first one. -/
example : run Toy.noExt (comprehensions [(2, dim (xs 0) 0)] previous) (Toy.envOf [(0, Toy.ints [7, 8, 9])]) =
    some (Toy.ints [7, 7, 8]) := by decide +kernel

/-- `array(λ i. rows[i][x[i]])`: the array that is read and the position depend on the same index, which `take`
cannot do (`array_indexing.py:103`). -/
def diagonal : Expr Int :=
  comprehensions [(2, dim (xs 0) 0)]
    (Phi.get (Phi.get (var 1 (.vector (.vector (.scalar .int)))) (at_ 2)) (Phi.get (xs 0) (at_ 2)))

/-- All options compile it, and give the elements `rows[0][1], rows[1][0]`. -/
example : ∀ o ∈ [allReads, onlyGathers, withTakes],
    ((compileProgram (program o) 20 diagonal).bind fun y => Yarr.eval (fun _ _ => none) y
      (yenvOf [(0, vecArr [.i 1, .i 0]), (1, ⟨[2, 3], [.i 1, .i 2, .i 3, .i 4, .i 5, .i 6], by decide⟩)])) =
      some (.arr (vecArr [.i 2, .i 4])) := by
  intro o ho
  simp only [List.mem_cons, List.not_mem_nil, or_false] at ho
  rcases ho with rfl | rfl | rfl <;> decide +kernel

example : run Toy.noExt diagonal (Toy.envOf [(0, Toy.ints [1, 0]), (1, .vec [Toy.ints [1, 2, 3], Toy.ints [4, 5, 6]])]) =
    some (Toy.ints [2, 4]) := by decide +kernel

end Verif.Props
