import Verif.Frontend.Scalar
import Verif.Exact
import Mathlib.Tactic.Ring

/-!
# C17: integer powers by squaring

`pow one e fuel k` models `e ** k` for a constant Python integer `k` (`ein/frontend/ndarray.py:299-314`);
`none`: the recursion of the construction does not end within depth `fuel`. Floats are read as exact
(`ExactFloat`).
-/

namespace Verif.Props
open Verif.Phi Verif.Frontend Verif.Term
variable {F : Type} [Field F] [LinearOrder F] [FloatOps F] [ExactFloat F]

omit [LinearOrder F] [ExactFloat F] [FloatOps F] [Field F] in
theorem powGo_isSome (e : Expr F) (fuel k : Nat) (hk : 0 < k) (hf : k ≤ fuel) :
    ∃ p, powGo e fuel k = some p := by
  induction fuel generalizing k with
  | zero => omega
  | succ fuel ih =>
    unfold powGo
    by_cases h1 : k = 1
    · exact ⟨e, by rw [if_pos h1]⟩
    · rw [if_neg h1]
      by_cases h2 : k % 2 = 1
      · rw [if_pos h2]
        obtain ⟨p, hp⟩ := ih (k - 1) (by omega) (by omega)
        exact ⟨_, by rw [hp]; rfl⟩
      · rw [if_neg h2]
        obtain ⟨p, hp⟩ := ih (k / 2) (by omega) (by omega)
        exact ⟨_, by rw [hp]; rfl⟩

theorem powGo_float (I : Ext F) (env : Env (D F)) (e : Expr F) (x : F)
    (he : run I e env = some (.sc (.f x))) (fuel k : Nat) (hk : 0 < k) (p : Expr F)
    (hp : powGo e fuel k = some p) : run I p env = some (.sc (.f (x ^ k))) := by
  induction fuel generalizing k p with
  | zero => cases hp
  | succ fuel ih =>
    unfold powGo at hp
    by_cases h1 : k = 1
    · rw [if_pos h1] at hp; cases hp; rw [he, h1, pow_one]
    · rw [if_neg h1] at hp
      by_cases h2 : k % 2 = 1
      · rw [if_pos h2] at hp
        obtain ⟨q, hq, rfl⟩ := Option.map_eq_some_iff.1 hp
        have := ih (k - 1) (by omega) q hq
        rw [mul, wrap, run_op2 I env _ _ _ this he]
        simp only [applyOp, Option.map_some, ExactFloat.mul, ← pow_succ]
        rw [Nat.sub_add_cancel hk]
      · rw [if_neg h2] at hp
        obtain ⟨q, hq, rfl⟩ := Option.map_eq_some_iff.1 hp
        have := ih (k / 2) (by omega) q hq
        rw [mul, wrap, run_op2 I env _ _ _ this this]
        simp only [applyOp, Option.map_some, ExactFloat.mul, ← pow_add]
        rw [show k / 2 + k / 2 = k by omega]

omit [LinearOrder F] [ExactFloat F] [Field F] in
theorem powGo_int (I : Ext F) (env : Env (D F)) (e : Expr F) (x : Int)
    (he : run I e env = some (.sc (.i x))) (fuel k : Nat) (hk : 0 < k) (p : Expr F)
    (hp : powGo e fuel k = some p) : run I p env = some (.sc (.i (x ^ k))) := by
  induction fuel generalizing k p with
  | zero => cases hp
  | succ fuel ih =>
    unfold powGo at hp
    by_cases h1 : k = 1
    · rw [if_pos h1] at hp; cases hp; rw [he, h1, pow_one]
    · rw [if_neg h1] at hp
      by_cases h2 : k % 2 = 1
      · rw [if_pos h2] at hp
        obtain ⟨q, hq, rfl⟩ := Option.map_eq_some_iff.1 hp
        have := ih (k - 1) (by omega) q hq
        rw [mul, wrap, run_op2 I env _ _ _ this he]
        simp only [applyOp, Option.map_some, ← pow_succ]
        rw [Nat.sub_add_cancel hk]
      · rw [if_neg h2] at hp
        obtain ⟨q, hq, rfl⟩ := Option.map_eq_some_iff.1 hp
        have := ih (k / 2) (by omega) q hq
        rw [mul, wrap, run_op2 I env _ _ _ this this]
        simp only [applyOp, Option.map_some, ← pow_add]
        rw [show k / 2 + k / 2 = k by omega]

/-- C17 for floats, except `k = 0` (see `C17_zero_counterexample`): the construction of `e ** k` ends,
and where `e` has the value `x` (not zero if `k < 0`) it has the value `x ^ k`. -/
theorem C17_power_float_partial (one : F) (h1 : one = 1) (e : Expr F) (k : Int) (hk : k ≠ 0) :
    ∃ p, (∀ fuel, k.natAbs ≤ fuel → pow one e fuel k = some p) ∧
      ∀ (I : Ext F) (env : Env (D F)) (x : F), run I e env = some (.sc (.f x)) → (k < 0 → x ≠ 0) →
        run I p env = some (.sc (.f (x ^ k))) := by
  have stable : ∀ (e : Expr F) (n m k : Nat) (p : Expr F), powGo e n k = some p → n ≤ m →
      powGo e m k = some p := by
    intro e n
    induction n with
    | zero => intro m k p h; cases h
    | succ n ih =>
      intro m k p h hm
      obtain ⟨m, rfl⟩ : ∃ m', m = m' + 1 := ⟨m - 1, by omega⟩
      unfold powGo at h ⊢
      by_cases h1 : k = 1
      · rwa [if_pos h1] at h ⊢
      · rw [if_neg h1] at h ⊢
        by_cases h2 : k % 2 = 1
        · rw [if_pos h2] at h ⊢
          obtain ⟨q, hq, rfl⟩ := Option.map_eq_some_iff.1 h
          rw [ih m _ q hq (by omega)]; rfl
        · rw [if_neg h2] at h ⊢
          obtain ⟨q, hq, rfl⟩ := Option.map_eq_some_iff.1 h
          rw [ih m _ q hq (by omega)]; rfl
  by_cases hneg : k < 0
  · obtain ⟨p, hp⟩ := powGo_isSome (rtruediv e (.float one)) (-k).toNat (-k).toNat (by omega) (le_refl _)
    refine ⟨p, fun fuel hf => ?_, fun I env x he hx => ?_⟩
    · rw [Frontend.pow, if_pos hneg]
      exact stable _ _ _ _ _ hp (by omega)
    · have hr : run I (rtruediv e (.float one)) env = some (.sc (.f x⁻¹)) := by
        have h2 : run I (op1 .reciprocal e) env = some (.sc (.f x⁻¹)) := by
          rw [run_op1 I env _ _ he]
          simp only [applyOp, Option.map_some, ExactFloat.recip x (hx hneg)]
        rw [rtruediv, truediv, mul, wrap, wrap, wrap, run_op2 I env _ _ _ (run_const I env _) h2]
        simp only [applyOp, Option.map_some, ExactFloat.mul, h1, one_mul]
      rw [powGo_float I env _ _ hr _ _ (by omega) p hp]
      have : k = -(((-k).toNat : Nat) : Int) := by omega
      conv_rhs => rw [this]
      rw [zpow_neg, zpow_natCast, inv_pow]
  · obtain ⟨p, hp⟩ := powGo_isSome e k.toNat k.toNat (by omega) (le_refl _)
    refine ⟨p, fun fuel hf => ?_, fun I env x he _ => ?_⟩
    · rw [Frontend.pow, if_neg hneg]
      exact stable _ _ _ _ _ hp (by omega)
    · rw [powGo_float I env _ _ he _ _ (by omega) p hp]
      have : k = ((k.toNat : Nat) : Int) := by omega
      conv_rhs => rw [this]
      rw [zpow_natCast]

omit [LinearOrder F] [ExactFloat F] [Field F] in
/-- C17 for integers and positive exponents. -/
theorem C17_power_int_partial (one : F) (e : Expr F) (k : Nat) (hk : 0 < k) (fuel : Nat)
    (hf : k ≤ fuel) : ∃ p, pow one e fuel k = some p ∧
      ∀ (I : Ext F) (env : Env (D F)) (x : Int), run I e env = some (.sc (.i x)) →
        run I p env = some (.sc (.i (x ^ k))) := by
  obtain ⟨p, hp⟩ := powGo_isSome e fuel k hk hf
  refine ⟨p, ?_, fun I env x he => powGo_int I env e x he fuel k hk p hp⟩
  rw [Frontend.pow, if_neg (by omega)]
  exact hp

omit [LinearOrder F] [ExactFloat F] [FloatOps F] [Field F] in
/-- `x ** 0` recurses forever: there is no depth at which the construction ends
(`RecursionError` in Python). -/
theorem C17_zero_counterexample (one : F) (e : Expr F) (fuel : Nat) : pow one e fuel 0 = none := by
  have : ∀ fuel, powGo e fuel 0 = none := by
    intro fuel
    induction fuel with
    | zero => rfl
    | succ n ih => simp [powGo, ih]
  simpa [Frontend.pow] using this fuel

omit [LinearOrder F] [ExactFloat F] [FloatOps F] [Field F] in
/-- C17: a negative power of an integer expression is rejected with a type error. -/
theorem C17_negative_int_rejected (one : F) (e : Expr F) (he : typeOf e = some (.scalar .int)) :
    typeOf (rtruediv e (.float one)) = none := by
  simp [rtruediv, truediv, mul, wrap, op1, op2, typeOf_node, he, typeStep, ScalarOp.arity,
    resolveSignature, resolveArgs, signature]

/-- Non-vacuity: `(2/3) ** (-3)` is built and evaluates to `27/8`. -/
example : (pow (1 : ℚ) (Frontend.const (.f (2/3))) 3 (-3)).bind
    (fun p => run (fun _ _ => none) p (fun _ => none)) = some (.sc (.f (27/8))) := by decide +kernel

end Verif.Props
