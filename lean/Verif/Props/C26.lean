import Verif.Props.C02

/-! # C26: concatenation -/

namespace Verif.Props
open Verif.Codegen Verif.Phi Verif.Term Verif.Yarr Verif.Arr
variable {F : Type} [FloatOps F]

omit [FloatOps F] in
/-- `Vec.concat` (`ndarray.py:218-220`); the layouts are erased. -/
def concat (a b : Expr F) : Expr F := node .concat [a, b]

/-- `concat(arg, *args)` (`std.py:25-26`) -/
def concatAll : Expr F → List (Expr F) → Expr F
  | a, [] => a
  | a, b :: l => concat a (concatAll b l)

theorem run_concat (I : Ext F) (a b : Expr F) (env : Env (D F)) (v : D F) :
    run I (concat a b) env = some v ↔ ∃ vs ws, run I a env = some (.vec vs) ∧ run I b env = some (.vec ws) ∧
      Val.uniform (vs ++ ws) = true ∧ v = .vec (vs ++ ws) := by
  rw [concat, run_node]
  simp only [List.map, runDen, concatOf, Option.bind_eq_some_iff]
  constructor
  · rintro ⟨vs, ⟨x, h1, h2⟩, ws, ⟨y, h3, h4⟩, h5⟩
    cases x with
    | vec x =>
      cases y with
      | vec y =>
        cases h2
        cases h4
        split at h5
        · cases h5; exact ⟨_, _, h1, h3, by assumption, rfl⟩
        · cases h5
      | sc _ => cases h4
      | pair _ _ => cases h4
    | sc _ => cases h2
    | pair _ _ => cases h2
  · rintro ⟨vs, ws, h1, h2, h3, rfl⟩
    exact ⟨vs, ⟨_, h1, rfl⟩, ws, ⟨_, h2, rfl⟩, by rw [if_pos h3]⟩

/-- The interpreter: the concatenation of vectors of lengths `m` and `n` has length `m + n`; its first `m`
elements are those of the first and the remaining ones those of the second. It exists if and only if all
elements have the same shape. -/
theorem C26_interpreter (I : Ext F) (a b : Expr F) (env : Env (D F)) (vs ws : List (D F))
    (ha : run I a env = some (.vec vs)) (hb : run I b env = some (.vec ws)) :
    ((∃ v, run I (concat a b) env = some v) ↔ ∀ u ∈ vs ++ ws, ∀ w ∈ vs ++ ws, Val.shape u = Val.shape w) ∧
    ∀ v, run I (concat a b) env = some v → ∃ us, v = .vec us ∧ us.length = vs.length + ws.length ∧
      (∀ k, k < vs.length → us[k]? = vs[k]?) ∧ ∀ k, us[vs.length + k]? = ws[k]? := by
  refine ⟨?_, fun v hv => ?_⟩
  · rw [← Val.uniform_iff]
    constructor
    · rintro ⟨v, hv⟩
      obtain ⟨vs', ws', h1, h2, h3, -⟩ := (run_concat I a b env v).1 hv
      rw [ha] at h1; rw [hb] at h2
      cases h1; cases h2
      exact h3
    · intro h
      exact ⟨_, (run_concat I a b env _).2 ⟨vs, ws, ha, hb, h, rfl⟩⟩
  · obtain ⟨vs', ws', h1, h2, h3, rfl⟩ := (run_concat I a b env v).1 hv
    rw [ha] at h1; rw [hb] at h2
    cases h1; cases h2
    refine ⟨_, rfl, by simp, fun k hk => List.getElem?_append_left hk, fun k => ?_⟩
    rw [List.getElem?_append_right (by omega)]
    congr 1
    omega

/-- The concatenation of any number of vectors is the concatenation of their elements. -/
theorem C26_variadic (I : Ext F) (a : Expr F) (l : List (Expr F)) (env : Env (D F)) (v : D F)
    (hv : run I (concatAll a l) env = some v) :
    l = [] ∨ ∃ us, List.Forall₂ (fun e vs => run I e env = some (.vec vs)) (a :: l) us ∧ v = .vec us.flatten := by
  induction l generalizing a v with
  | nil => exact .inl rfl
  | cons b l ih =>
    refine .inr ?_
    obtain ⟨vs, ws, h1, h2, -, rfl⟩ := (run_concat I _ _ env v).1 hv
    rcases ih b _ h2 with rfl | ⟨us, h3, h4⟩
    · exact ⟨[vs, ws], .cons h1 (.cons h2 .nil), by simp⟩
    · cases h4
      exact ⟨vs :: us, .cons h1 h3, by simp⟩

/-- C26 for compiled code: where `a` and `b` may depend on surrounding indices and have elements of any rank,
the part of the compiled array at the position `ix` of the indices has length `m + n`; its first `m` parts
represent the elements of `a` and the remaining ones those of `b`. -/
theorem C26_compiled_partial (o : Opts F) (I : Ext F) (J : YExt F) (hJ : Vectorises I J) (fuel : Nat) (l : List (Nat × Expr F))
    (x z : Expr F) (q : Phi.Arr) (S : Finset Sym) (Γ : TCtx) (τ σ : Ty) (env : Env (D F)) (yenv : Env (YVal F)) (v : D F)
    (y : YExpr F) (hb : Phi.typeOf (concat x z) = some σ) (hq : Phi.prim σ = some [q])
    (h : Setting o I fuel (comprehensions l (concat x z)) S Γ τ env yenv v y) :
    ∃ (a : A F) (s : List Nat) (d : Nat) (s' : List Nat), Yarr.eval J y yenv = some (.arr a) ∧ a.shape = s ++ d :: s' ∧
      s.length = l.length ∧ ∀ ix, InRange s ix → ∃ vs ws,
        run I x (atElement l ix env) = some (.vec vs) ∧ run I z (atElement l ix env) = some (.vec ws) ∧
        d = vs.length + ws.length ∧
        (∀ (k : Nat) u, vs[k]? = some u → Reps s' (fun jx => a.get? (ix ++ k :: jx)) u) ∧
        (∀ (k : Nat) u, ws[k]? = some u → Reps s' (fun jx => a.get? (ix ++ (vs.length + k) :: jx)) u) := by
  obtain ⟨a, s, s', h1, h2, h3, h4, h5⟩ := C01_comprehension_parts_partial o I J hJ fuel l _ q S Γ τ σ env yenv v y hb hq h
  have hr : q.rank ≠ 0 := by
    intro h0
    have hσ : ∃ σ', σ = .vector σ' := by
      rw [concat, Phi.typeOf_node] at hb
      simp only [List.map] at hb
      generalize Phi.typeOf x = t1 at hb
      generalize Phi.typeOf z = t2 at hb
      rcases t1 with _ | (_ | _ | _) <;> rcases t2 with _ | t2 <;> simp only [Phi.typeStep] at hb <;> try cases hb
      split at hb
      · cases hb; exact ⟨_, rfl⟩
      · cases hb
    obtain ⟨σ', rfl⟩ := hσ
    simp only [Phi.prim] at hq
    cases hp : Phi.prim σ' with
    | none => simp [hp] at hq
    | some l =>
      rcases l with _ | ⟨c, _ | ⟨_, _⟩⟩ <;> simp [hp, Phi.single] at hq
      subst hq
      simp [Arr.lift] at h0
  cases s' with
  | nil => simp at h4; omega
  | cons d s' =>
    refine ⟨a, s, d, s', h1, h2, h3, fun ix hix => ?_⟩
    obtain ⟨w, h6, h7⟩ := h5 ix hix
    obtain ⟨vs, ws, h8, h9, -, rfl⟩ := (run_concat I x z _ w).1 h6
    obtain ⟨-, us, e, h10, h11⟩ := h7
    cases e
    refine ⟨vs, ws, h8, h9, by simpa using h10.symm, fun k u hu => ?_, fun k u hu => ?_⟩
    · have hk : k < vs.length := (List.getElem?_eq_some_iff.1 hu).1
      exact h11 k u (by rw [List.getElem?_append_left hk]; exact hu)
    · refine h11 (vs.length + k) u ?_
      rw [List.getElem?_append_right (by omega)]
      simpa using hu

/-! ### Non-vacuity: `array(λ i. concat(array(λ j. x[i]), y))` -/

/-- `concat(array(λ j. x[i], size=2), y)` -/
def joined : Expr Int := concat (vec 3 (int 2) (Phi.get (xs 0) (at_ 2))) (xs 1)

theorem joined_setting : ∃ v y, Setting allReads Toy.noExt 20 (comprehensions [(2, dim (xs 0) 0)] joined) blurInputs
    blurCtx (.vector (.vector (.scalar .int))) blurEnv blurArrays v y := by
  obtain ⟨y, hy⟩ := Option.isSome_iff_exists.1
    (show (compileProgram (evenPairs allReads) 20 (comprehensions [(2, dim (xs 0) 0)] joined)).isSome = true by decide +kernel)
  obtain ⟨v, hv⟩ := Option.isSome_iff_exists.1
    (show (check allReads Toy.noExt false (comprehensions [(2, dim (xs 0) 0)] joined) (fun _ => 0) blurEnv).isSome = true by
      decide +kernel)
  obtain ⟨_, _, h⟩ := blur_setting
  exact ⟨v, y, h.inputs, by decide +kernel, by decide +kernel, declB_declared _ _ _ (by decide +kernel), h.values,
    h.arrays, hv, hy, .loops fun _ _ _ _ _ => rfl⟩

example : run Toy.noExt (comprehensions [(2, dim (xs 0) 0)] joined) blurEnv =
    some (.vec [Toy.ints [10, 10, 1, 2, 3], Toy.ints [20, 20, 1, 2, 3]]) := by decide +kernel

end Verif.Props
