import Verif.Frontend.Scalar
import Verif.Exact
import Mathlib.Tactic.Ring
import Mathlib.Algebra.Order.Group.Unbundled.Abs
import Mathlib.Algebra.Order.Floor.Ring
import Mathlib.Data.Rat.Floor

/-!
# C24: overloaded operators mean what they say

`binary o a b` models the Python expression `a o b` where at least one operand is an ein scalar and the
other one an ein scalar or a plain number (`ein/frontend/ndarray.py:254-371`). Floats are read as exact.
-/

namespace Verif.Props
open Verif.Phi Verif.Frontend Verif.Term
variable {F : Type} [Field F] [LinearOrder F]

/-- Specification: the mathematical operation, left operand first; `none`: not defined on these kinds.
`%` is the remainder of floor division (0 for divisor 0, as in NumPy). -/
def opSpec : PyOp → Scal F → Scal F → Option (Scal F)
  | .add, .i x, .i y => some (.i (x + y))
  | .add, .f x, .f y => some (.f (x + y))
  | .sub, .i x, .i y => some (.i (x - y))
  | .sub, .f x, .f y => some (.f (x - y))
  | .mul, .i x, .i y => some (.i (x * y))
  | .mul, .f x, .f y => some (.f (x * y))
  | .truediv, .f x, .f y => some (.f (x / y))
  | .mod, .i x, .i y => some (.i (if y = 0 then 0 else x - y * ⌊(x / y : ℚ)⌋))
  | .and, .b x, .b y => some (.b (x && y))
  | .or, .b x, .b y => some (.b (x || y))
  | .lt, .i x, .i y => some (.b (decide (x < y)))
  | .lt, .f x, .f y => some (.b (decide (x < y)))
  | .le, .i x, .i y => some (.b (decide (x ≤ y)))
  | .le, .f x, .f y => some (.b (decide (x ≤ y)))
  | .gt, .i x, .i y => some (.b (decide (x > y)))
  | .gt, .f x, .f y => some (.b (decide (x > y)))
  | .ge, .i x, .i y => some (.b (decide (x ≥ y)))
  | .ge, .f x, .f y => some (.b (decide (x ≥ y)))
  | .eq, .i x, .i y => some (.b (decide (x = y)))
  | .eq, .f x, .f y => some (.b (decide (x = y)))
  | .ne, .i x, .i y => some (.b (decide (x ≠ y)))
  | .ne, .f x, .f y => some (.b (decide (x ≠ y)))
  | .min, .i x, .i y => some (.i (Min.min x y))
  | .min, .f x, .f y => some (.f (Min.min x y))
  | .max, .i x, .i y => some (.i (Max.max x y))
  | .max, .f x, .f y => some (.f (Max.max x y))
  | _, _, _ => none

/-- Specification: the value of an operand. -/
def Operand [FloatOps F] (I : Ext F) (env : Env (D F)) : ScalarLike F → Scal F → Prop
  | .scalar e, x => run I e env = some (.sc x)
  | .bool b, x => x = .b b
  | .int n, x => x = .i n
  | .float r, x => x = .f r

theorem wrap_scalar {F : Type} (e : Expr F) : wrap (.scalar e) = e := rfl

omit [Field F] [LinearOrder F] in
theorem Operand.wrap [FloatOps F] {I : Ext F} {env : Env (D F)} {a : ScalarLike F} {x : Scal F}
    (h : Operand I env a x) : run I (wrap a) env = some (.sc x) := by
  cases a with
  | scalar e => exact h
  | bool b => cases h; exact run_const I env _
  | int b => cases h; exact run_const I env _
  | float b => cases h; exact run_const I env _

theorem floor_fdiv (x y : Int) : ⌊(x / y : ℚ)⌋ = Int.fdiv x y := by
  rcases Int.eq_nat_or_neg y with ⟨n, rfl | rfl⟩
  · rw [Int.cast_natCast, Rat.floor_intCast_div_natCast, Int.fdiv_eq_ediv_of_nonneg _ (by omega)]
  · have : (x / ((-(n : Int) : Int) : ℚ)) = ((-x : Int) : ℚ) / (n : ℚ) := by
      push_cast; rw [div_neg, neg_div]
    rw [this, Rat.floor_intCast_div_natCast, ← Int.fdiv_eq_ediv_of_nonneg _ (by omega)]
    rw [← Int.neg_fdiv_neg, neg_neg]

theorem intMod_eq (x y : Int) : intMod x y = if y = 0 then 0 else x - y * ⌊(x / y : ℚ)⌋ := by
  unfold intMod
  by_cases h : y = 0
  · simp [h]
  · rw [if_neg h, if_neg h, floor_fdiv]
    rw [Int.fmod_def]

variable [FloatOps F] [ExactFloat F]

/-- C24, binary operators in all combinations of ein scalars and plain numbers: if the expression can be
built, its value is the mathematical operation on the operands in this order; operands of other kinds
give no value. -/
theorem C24_binary (I : Ext F) (env : Env (D F)) (o : PyOp) (a b : ScalarLike F) (x y : Scal F)
    (ha : Operand I env a x) (hb : Operand I env b y) (hdiv : o = .truediv → y ≠ .f 0) (e : Expr F)
    (he : binary o a b = some e) : run I e env = (opSpec o x y).map .sc := by
  have swap : ∀ (s : Expr F) (l : ScalarLike F) (m : Expr F → ScalarLike F → Expr F),
      reflected o = some m → run I s env = some (.sc y) → run I (wrap l) env = some (.sc x) →
      run I (m s l) env = (opSpec o x y).map .sc := by
    intro s l m hm hs hl
    cases o <;> simp only [reflected, Option.some.injEq, reduceCtorEq] at hm <;> subst hm
    case sub =>
      cases y with
      | b v =>
        rw [rsub, add, run_op2_none_left]
        · cases x <;> rfl
        · rw [Frontend.neg, run_op1 I env _ _ hs]; rfl
      | i v =>
        have : run I (Frontend.neg s) env = some (.sc (.i (-v))) := by
          rw [Frontend.neg, run_op1 I env _ _ hs]; rfl
        rw [rsub, add, run_op2 I env _ _ _ this hl]
        cases x with
        | i u => simp only [applyOp, opSpec, Option.map_some]; congr 3; ring
        | _ => rfl
      | f v =>
        have : run I (Frontend.neg s) env = some (.sc (.f (-v))) := by
          rw [Frontend.neg, run_op1 I env _ _ hs]; simp only [applyOp, ExactFloat.neg]; rfl
        rw [rsub, add, run_op2 I env _ _ _ this hl]
        cases x with
        | f u => simp only [applyOp, opSpec, Option.map_some, ExactFloat.add]; congr 3; ring
        | _ => rfl
    case truediv =>
      have hs' : run I (wrap (.scalar s)) env = some (.sc y) := hs
      cases y with
      | b v | i v =>
        rw [rtruediv, truediv, mul, run_op2_none_right]
        · cases x <;> rfl
        · rw [wrap, run_op1 I env _ _ hs']; rfl
      | f v =>
        have : run I (op1 .reciprocal s) env = some (.sc (.f v⁻¹)) := by
          rw [run_op1 I env _ _ hs]
          simp only [applyOp, ExactFloat.recip v (fun h => hdiv rfl (by rw [h]))]; rfl
        rw [rtruediv, truediv, mul, wrap, wrap, run_op2 I env _ _ _ hl this]
        cases x with
        | f u => simp only [applyOp, opSpec, Option.map_some, ExactFloat.mul, div_eq_mul_inv]
        | _ => rfl
    all_goals
      first
      | (simp only [add, mul, eq, ne, lt, le]
         rw [run_op2 I env _ _ _ hs hl])
      | (simp only [gt, ge, lt, le, wrap_scalar]
         rw [run_op2 I env _ _ _ hl hs])
    all_goals
      cases x <;> cases y <;>
        simp [applyOp, opSpec, ExactFloat.add, ExactFloat.mul, ExactFloat.lt, ExactFloat.le,
          ExactFloat.eq, add_comm, mul_comm, eq_comm]
  cases a with
  | scalar s =>
    simp only [binary, Option.some.injEq] at he
    subst he
    have hs : run I s env = some (.sc x) := ha
    have hl := hb.wrap
    cases o <;> simp only [method]
    case truediv =>
      cases y with
      | b v | i v =>
        rw [truediv, mul, run_op2_none_right]
        · cases x <;> rfl
        · rw [wrap, run_op1 I env _ _ hl]; rfl
      | f v =>
        have : run I (op1 .reciprocal (wrap b)) env = some (.sc (.f v⁻¹)) := by
          rw [run_op1 I env _ _ hl]
          simp only [applyOp, ExactFloat.recip v (fun h => hdiv rfl (by rw [h]))]; rfl
        rw [truediv, mul, wrap, run_op2 I env _ _ _ hs this]
        cases x with
        | f u => simp only [applyOp, opSpec, Option.map_some, ExactFloat.mul, div_eq_mul_inv]
        | _ => rfl
    all_goals
      first
      | (simp only [add, sub, mul, mod, Frontend.and, Frontend.or, eq, ne, lt, le, Frontend.min, Frontend.max]
         rw [run_op2 I env _ _ _ hs hl])
      | (simp only [gt, ge, lt, le, wrap_scalar]
         rw [run_op2 I env _ _ _ hl hs])
    all_goals
      cases x <;> cases y <;>
        simp [applyOp, opSpec, ExactFloat.add, ExactFloat.sub, ExactFloat.mul, ExactFloat.lt,
          ExactFloat.le, ExactFloat.eq, ExactFloat.min, ExactFloat.max, intMod_eq]
  | bool v | int v | float v =>
    cases b with
    | scalar s =>
      simp only [binary] at he
      obtain ⟨m, hm, rfl⟩ := Option.map_eq_some_iff.1 he
      exact swap s _ m hm hb ha.wrap
    | bool _ => simp [binary] at he
    | int _ => simp [binary] at he
    | float _ => simp [binary] at he

omit [Field F] [LinearOrder F] [FloatOps F] [ExactFloat F] in
/-- C24, which combinations can be built: all, except that `%`, `&`, `|`, `min` and `max` need an ein
scalar on the left. -/
theorem C24_binary_defined (o : PyOp) (a b : ScalarLike F) :
    (binary o a b).isSome ↔ (∃ e, a = .scalar e) ∨
      ((∃ e, b = .scalar e) ∧ o ≠ .mod ∧ o ≠ .and ∧ o ≠ .or ∧ o ≠ .min ∧ o ≠ .max) := by
  cases a <;> cases b <;> cases o <;> simp [binary, reflected]

/-- C24, unary operators and methods on exact numbers. -/
theorem C24_unary (I : Ext F) (env : Env (D F)) (e : Expr F) (x : Scal F)
    (he : run I e env = some (.sc x)) :
    run I (neg e) env = (match x with
      | .i n => some (.sc (.i (-n))) | .f r => some (.sc (.f (-r))) | .b _ => none) ∧
    run I (invert e) env = (match x with | .b b => some (.sc (.b (!b))) | _ => none) ∧
    run I (Frontend.float e) env = (match x with | .i n => some (.sc (.f (n : F))) | _ => none) := by
  refine ⟨?_, ?_, ?_⟩
  · rw [Frontend.neg, run_op1 I env _ _ he]; cases x <;> simp [applyOp, ExactFloat.neg]
  · rw [invert, run_op1 I env _ _ he]; cases x <;> simp [applyOp]
  · rw [Frontend.float, run_op1 I env _ _ he]; cases x <;> simp [applyOp, ExactFloat.ofInt]

/-- C24, `min`, `max`. -/
theorem C24_minmax (I : Ext F) (env : Env (D F)) (e : Expr F) (b : ScalarLike F) (x y : Scal F)
    (he : run I e env = some (.sc x)) (hb : Operand I env b y) :
    run I (Frontend.min e b) env = (match x, y with
      | .i n, .i m => some (.sc (.i (min n m))) | .f r, .f s => some (.sc (.f (min r s)))
      | _, _ => none) ∧
    run I (Frontend.max e b) env = (match x, y with
      | .i n, .i m => some (.sc (.i (max n m))) | .f r, .f s => some (.sc (.f (max r s)))
      | _, _ => none) := by
  constructor
  · rw [Frontend.min, run_op2 I env _ _ _ he hb.wrap]
    cases x <;> cases y <;> simp [applyOp, ExactFloat.min]
  · rw [Frontend.max, run_op2 I env _ _ _ he hb.wrap]
    cases x <;> cases y <;> simp [applyOp, ExactFloat.max]

omit [Field F] [LinearOrder F] [ExactFloat F] in
/-- C24, `c.where(t, f)` selects the first argument iff the condition holds; both have one kind. -/
theorem C24_where (I : Ext F) (env : Env (D F)) (c : Expr F) (t f : ScalarLike F) (b : Bool)
    (x y : Scal F) (hc : run I c env = some (.sc (.b b))) (ht : Operand I env t x)
    (hf : Operand I env f y) (hk : x.kind = y.kind) :
    run I (where_ c t f) env = some (.sc (if b then x else y)) := by
  rw [where_, run_op3 I env _ _ _ _ hc ht.wrap hf.wrap]
  cases x <;> cases y <;> simp [Scal.kind] at hk <;> cases b <;> simp [applyOp]

/-- C24, `abs`. The static type decides which zero is compared with, so the value must have it. -/
theorem C24_abs [IsStrictOrderedRing F] (I : Ext F) (env : Env (D F)) (e : Expr F) (x : Scal F) (zero : F) (hz : zero = 0)
    (he : run I e env = some (.sc x)) (ht : typeOf e = some (.scalar x.kind)) :
    run I (Frontend.abs zero e) env = (match x with
      | .i n => some (.sc (.i |n|)) | .f r => some (.sc (.f |r|)) | .b _ => none) := by
  subst hz
  have hneg := (C24_unary I env e x he).1
  cases x with
  | b v =>
    simp only [Frontend.abs, ht, Scal.kind, where_, wrap_scalar, gt, lt]
    rw [if_neg (by simp)]
    have : run I (op2 .less (wrap (.float (0 : F))) e) env = none := by
      rw [wrap, run_op2 I env _ _ _ (run_const I env _) he]; rfl
    rw [run_node]
    simp only [runDen, List.map_cons, List.map_nil, opOf, mapOpt, this, Option.bind_none]
  | i n =>
    simp only [Frontend.abs, ht, Scal.kind, if_true, where_, wrap, gt, lt]
    have : run I (op2 .less (Frontend.const (.i 0)) e) env = some (.sc (.b (decide (0 < n)))) := by
      rw [run_op2 I env _ _ _ (run_const I env _) he]; rfl
    rw [run_op3 I env _ _ _ _ this he hneg]
    simp only [applyOp, Option.map_some]
    congr 3
    by_cases h : 0 < n
    · rw [if_pos (by simpa using h), abs_of_pos h]
    · rw [if_neg (by simpa using h), abs_of_nonpos (not_lt.1 h)]
  | f r =>
    simp only [Frontend.abs, ht, Scal.kind, where_, wrap_scalar, gt, lt]
    rw [if_neg (by simp)]
    have : run I (op2 .less (wrap (.float (0 : F))) e) env = some (.sc (.b (decide (0 < r)))) := by
      rw [wrap, run_op2 I env _ _ _ (run_const I env _) he]; simp only [applyOp, ExactFloat.lt]; rfl
    rw [run_op3 I env _ _ _ _ this he hneg]
    simp only [applyOp, Option.map_some]
    congr 3
    by_cases h : 0 < r
    · rw [if_pos (by simpa using h), abs_of_pos h]
    · rw [if_neg (by simpa using h), abs_of_nonpos (not_lt.1 h)]

/-- C24, variadic `min` of the standard library, on integers: the result is one of
the arguments' values and bounds all of them. -/
theorem C24_stdMin_int (I : Ext F) (env : Env (D F)) (args : List (ScalarLike F)) (xs : List Int)
    (h : List.Forall₂ (fun a x => Operand I env a (.i x)) args xs) (hne : args ≠ []) :
    ∃ e m, stdMin args = some e ∧ run I e env = some (.sc (.i m)) ∧ m ∈ xs ∧ ∀ x ∈ xs, m ≤ x := by
  cases h with
  | nil => exact absurd rfl hne
  | @cons a x args xs ha h =>
    refine ⟨_, xs.foldl min x, rfl, ?_, ?_⟩
    · have : ∀ (acc : Expr F) (m : Int), run I acc env = some (.sc (.i m)) →
          run I (args.foldl (fun acc b => Frontend.min acc (.scalar (wrap b))) acc) env =
            some (.sc (.i (xs.foldl min m))) := by
        clear hne
        induction h with
        | nil => intro acc m hm; exact hm
        | @cons b y args xs hb h ih =>
          intro acc m hm
          refine ih _ _ ?_
          have := (C24_minmax I env acc (.scalar (wrap b)) (.i m) (.i y) hm hb.wrap).1
          exact this
      exact this _ _ ha.wrap
    · clear hne h ha
      induction xs generalizing x with
      | nil => simp
      | cons y xs ih =>
        obtain ⟨h1, h2⟩ := @ih (min x y)
        simp only [List.foldl_cons]
        refine ⟨?_, fun z hz => ?_⟩
        · rcases List.mem_cons.1 h1 with h | h
          · rw [h]; rcases min_choice x y with h | h <;> simp [h]
          · simp [h]
        · simp only [List.mem_cons] at hz h2
          have h0 := h2 _ (Or.inl rfl)
          rcases hz with rfl | rfl | hz
          · exact le_trans h0 (min_le_left _ _)
          · exact le_trans h0 (min_le_right _ _)
          · exact h2 z (Or.inr hz)

/-- C24, variadic `max`. -/
theorem C24_stdMax_int (I : Ext F) (env : Env (D F)) (args : List (ScalarLike F)) (xs : List Int)
    (h : List.Forall₂ (fun a x => Operand I env a (.i x)) args xs) (hne : args ≠ []) :
    ∃ e m, stdMax args = some e ∧ run I e env = some (.sc (.i m)) ∧ m ∈ xs ∧ ∀ x ∈ xs, x ≤ m := by
  cases h with
  | nil => exact absurd rfl hne
  | @cons a x args xs ha h =>
    refine ⟨_, xs.foldl max x, rfl, ?_, ?_⟩
    · have : ∀ (acc : Expr F) (m : Int), run I acc env = some (.sc (.i m)) →
          run I (args.foldl (fun acc b => Frontend.max acc (.scalar (wrap b))) acc) env =
            some (.sc (.i (xs.foldl max m))) := by
        clear hne
        induction h with
        | nil => intro acc m hm; exact hm
        | @cons b y args xs hb h ih =>
          intro acc m hm
          refine ih _ _ ?_
          have := (C24_minmax I env acc (.scalar (wrap b)) (.i m) (.i y) hm hb.wrap).2
          exact this
      exact this _ _ ha.wrap
    · clear hne h ha
      induction xs generalizing x with
      | nil => simp
      | cons y xs ih =>
        obtain ⟨h1, h2⟩ := @ih (max x y)
        simp only [List.foldl_cons]
        refine ⟨?_, fun z hz => ?_⟩
        · rcases List.mem_cons.1 h1 with h | h
          · rw [h]; rcases max_choice x y with h | h <;> simp [h]
          · simp [h]
        · simp only [List.mem_cons] at hz h2
          have h0 := h2 _ (Or.inl rfl)
          rcases hz with rfl | rfl | hz
          · exact le_trans (le_max_left _ _) h0
          · exact le_trans (le_max_right _ _) h0
          · exact h2 z (Or.inr hz)

/-- Non-vacuity: `3 - x`, `7 % x` is not defined, `1.0 / y`. -/
example :
    let env : Env (D ℚ) := fun s => if s = .var 0 then some (.sc (.i 5)) else some (.sc (.f (1/4)))
    let x : ScalarLike ℚ := .scalar (var 0 (.scalar .int))
    let y : ScalarLike ℚ := .scalar (var 1 (.scalar .float))
    (binary .sub (.int 3) x).bind (fun e => run (fun _ _ => none) e env) = some (.sc (.i (-2))) ∧
    (binary .mod (.int 7) x) = none ∧
    (binary .mod x (.int (-3))).bind (fun e => run (fun _ _ => none) e env) = some (.sc (.i (-1))) ∧
    (binary .truediv (.float 1) y).bind (fun e => run (fun _ _ => none) e env) = some (.sc (.f 4)) := by
  refine ⟨by decide +kernel, rfl, by decide +kernel, by decide +kernel⟩

end Verif.Props
