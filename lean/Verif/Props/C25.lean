import Verif.Frontend.Std
import Verif.FloatOrder
import Verif.Exact
import Verif.Props.C05

/-!
# C25: the provided monoids are monoids

The reductions of `ein/frontend/std.py:41-86`. A monoid's operation is the meaning of the expression its
`concat` builds. Sums are read as exact; `min`, `max` and `argmin` only need the order of floats
(`FloatOrder`) and range over all floats except NaN.
-/

namespace Verif.Props
open Verif.Phi Verif.Frontend Verif.Backend Verif.Term
variable {F : Type} [FloatOps F]

/-- The operation computed by an expression with two variables `0` and `1`. -/
def opOfExpr (I : Ext F) (e : Expr F) (x y : D F) : Option (D F) :=
  run I e (fun s => if s = .var 0 then some x else if s = .var 1 then some y else none)

/-- Float variables. -/
def fvar (v : Nat) : Expr F := var v (.scalar .float)

theorem run_var (I : Ext F) (v : Nat) (τ : Ty) (env : Env (D F)) : run I (var v τ) env = env (.var v) := by
  rw [var, run_node]; rfl

theorem op_float (I : Ext F) (o : ScalarOp) (x y : F) :
    opOfExpr I (op2 o (fvar 0) (fvar 1)) (.sc (.f x)) (.sc (.f y)) =
      (applyOp o [.f x, .f y]).map .sc := by
  refine run_op2 I _ _ _ _ ?_ ?_ <;> rw [fvar, run_var] <;> rfl

/-- C25: `sum_monoid` is a monoid with identity 0 on exact floats. -/
theorem C25_sum [Field F] [LinearOrder F] [ExactFloat F] (I : Ext F) :
    Monoid (fun v : D F => ∃ r, v = .sc (.f r)) (opOfExpr I (sumConcat (fvar 0) (fvar 1)))
      (fun v w => match v, w with | .sc (.f x), .sc (.f y) => .sc (.f (x + y)) | _, _ => v)
      (.sc (.f 0)) where
  defined := by
    rintro _ _ ⟨x, rfl⟩ ⟨y, rfl⟩
    rw [sumConcat, add, wrap, op_float]; simp [applyOp, ExactFloat.add]
  closed := by rintro _ _ ⟨x, rfl⟩ ⟨y, rfl⟩; exact ⟨_, rfl⟩
  assoc := by rintro _ _ _ ⟨x, rfl⟩ ⟨y, rfl⟩ ⟨z, rfl⟩; simp [add_assoc]
  one := ⟨_, rfl⟩
  one_left := by rintro _ ⟨x, rfl⟩; simp
  one_right := by rintro _ ⟨x, rfl⟩; simp

/-- Specification: a float value that is not NaN. -/
def IsNum [FloatOrder F] (v : D F) : Prop := ∃ r : F, FloatOrder.num r ∧ v = .sc (.f r)

/-- Specification: the smaller float, the first on ties. -/
def smaller (v w : D F) : D F :=
  match v, w with
  | .sc (.f x), .sc (.f y) => if FloatOps.le x y then v else w
  | _, _ => v

/-- Specification: the larger float, the first on ties. -/
def larger (v w : D F) : D F :=
  match v, w with
  | .sc (.f x), .sc (.f y) => if FloatOps.le y x then v else w
  | _, _ => v

/-- C25: `min_monoid` is a monoid with identity `+inf`. -/
theorem C25_min [FloatOrder F] (I : Ext F) :
    Monoid (IsNum (F := F)) (opOfExpr I (minConcat (fvar 0) (fvar 1))) smaller
      (.sc (.f FloatOrder.inf)) where
  defined := by
    rintro _ _ ⟨x, hx, rfl⟩ ⟨y, hy, rfl⟩
    rw [minConcat, Frontend.min, wrap, op_float]
    simp only [applyOp, FloatOrder.min_eq x y hx hy, smaller, Option.map_some]
    cases FloatOps.le x y <;> simp
  closed := by
    rintro _ _ ⟨x, hx, rfl⟩ ⟨y, hy, rfl⟩
    simp only [smaller]
    cases FloatOps.le x y
    · exact ⟨y, hy, by simp⟩
    · exact ⟨x, hx, by simp⟩
  assoc := by
    rintro _ _ _ ⟨x, hx, rfl⟩ ⟨y, hy, rfl⟩ ⟨z, hz, rfl⟩
    have ht := FloatOrder.le_trans x y z hx hy hz
    have t1 := FloatOrder.le_total x y hx hy
    have t2 := FloatOrder.le_total y z hy hz
    have ht' := FloatOrder.le_trans y x z hy hx hz
    simp only [smaller]
    cases h1 : FloatOps.le x y <;> cases h2 : FloatOps.le y z <;> cases h3 : FloatOps.le x z <;>
      simp_all
  one := ⟨_, FloatOrder.num_inf, rfl⟩
  one_left := by
    rintro _ ⟨x, hx, rfl⟩
    simp only [smaller]
    cases h : FloatOps.le (FloatOrder.inf : F) x
    · simp
    · rw [FloatOrder.inf_le x hx h]; simp
  one_right := by
    rintro _ ⟨x, hx, rfl⟩
    simp [smaller, FloatOrder.le_inf x hx]

/-- C25: `max_monoid` is a monoid with identity `-inf`. -/
theorem C25_max [FloatOrder F] (I : Ext F) :
    Monoid (IsNum (F := F)) (opOfExpr I (maxConcat (fvar 0) (fvar 1))) larger
      (.sc (.f FloatOrder.ninf)) where
  defined := by
    rintro _ _ ⟨x, hx, rfl⟩ ⟨y, hy, rfl⟩
    rw [maxConcat, Frontend.max, wrap, op_float]
    simp only [applyOp, FloatOrder.max_eq x y hx hy, larger, Option.map_some]
    cases FloatOps.le y x <;> simp
  closed := by
    rintro _ _ ⟨x, hx, rfl⟩ ⟨y, hy, rfl⟩
    simp only [larger]
    cases FloatOps.le y x
    · exact ⟨y, hy, by simp⟩
    · exact ⟨x, hx, by simp⟩
  assoc := by
    rintro _ _ _ ⟨x, hx, rfl⟩ ⟨y, hy, rfl⟩ ⟨z, hz, rfl⟩
    have ht := FloatOrder.le_trans z y x hz hy hx
    have t1 := FloatOrder.le_total x y hx hy
    have t2 := FloatOrder.le_total y z hy hz
    have ht' := FloatOrder.le_trans z x y hz hx hy
    simp only [larger]
    cases h1 : FloatOps.le y x <;> cases h2 : FloatOps.le z y <;> cases h3 : FloatOps.le z x <;>
      simp_all
  one := ⟨_, FloatOrder.num_ninf, rfl⟩
  one_left := by
    rintro _ ⟨x, hx, rfl⟩
    simp only [larger]
    cases h : FloatOps.le x (FloatOrder.ninf : F)
    · simp
    · rw [FloatOrder.le_ninf x hx h]; simp
  one_right := by
    rintro _ ⟨x, hx, rfl⟩
    simp [larger, FloatOrder.ninf_le x hx]

/-- Consequence of C05 and C25: `reduce_min` on the array backends, on the interpreter, and the
left-to-right minimum agree. -/
theorem C25_reduce_min [FloatOrder F] (I : Ext F) (xs : List (D F)) (hx : ∀ x ∈ xs, IsNum x) :
    treeReduce (opOfExpr I (minConcat (fvar 0) (fvar 1))) (.sc (.f FloatOrder.inf)) xs =
        some (xs.foldl smaller (.sc (.f FloatOrder.inf))) ∧
      reduceOf (some (.sc (.f FloatOrder.inf))) [some (.vec xs)]
          (opOfExpr I (minConcat (fvar 0) (fvar 1))) =
        some (xs.foldl smaller (.sc (.f FloatOrder.inf))) := by
  obtain ⟨h1, h2⟩ := C05_tree_reduce_monoid (C25_min I) xs hx
  exact ⟨h1, h2.trans h1⟩

/-! ### Arg-min -/

/-- Specification: `k` is the first position of a smallest element. -/
structure IsArgmin (r : Nat → F) (n k : Nat) : Prop where
  lt : k < n
  least : ∀ j < n, FloatOps.le (r k) (r j) = true
  first : ∀ j < k, FloatOps.le (r j) (r k) = false

/-- Specification: the element with the smaller value, the first on ties. -/
def smallerPair (v w : D F) : D F :=
  match v, w with
  | .pair (.sc (.f x)) _, .pair (.sc (.f y)) _ => if FloatOps.le x y then v else w
  | _, _ => v

/-- A value with its position. -/
def posVal (x : F) (i : Int) : D F := .pair (.sc (.f x)) (.int i)

/-- Values with a position that are not NaN. -/
def IsPos [FloatOrder F] (v : D F) : Prop := ∃ (x : F) (i : Int), FloatOrder.num x ∧ v = posVal x i

theorem run_fst {I : Ext F} {e : Expr F} {env : Env (D F)} {a b : D F}
    (h : run I e env = some (.pair a b)) : run I (fst e) env = some a := by
  rw [fst, run_node]; simp [runDen, fstOf, h]

theorem run_snd {I : Ext F} {e : Expr F} {env : Env (D F)} {a b : D F}
    (h : run I e env = some (.pair a b)) : run I (snd e) env = some b := by
  rw [snd, run_node]; simp [runDen, sndOf, h]

theorem run_cons {I : Ext F} {e f : Expr F} {env : Env (D F)} {a b : D F}
    (h : run I e env = some a) (h' : run I f env = some b) :
    run I (cons e f) env = some (.pair a b) := by
  rw [cons, run_node]; simp [runDen, consOf, h, h']

/-- The meaning of `argmin_monoid.concat` on any two pairs of expressions. -/
theorem run_argminConcat (I : Ext F) (env : Env (D F)) (a b : Expr F × Expr F) (x y : F) (i j : Int)
    (ha1 : run I a.1 env = some (.sc (.f x))) (ha2 : run I a.2 env = some (.int i))
    (hb1 : run I b.1 env = some (.sc (.f y))) (hb2 : run I b.2 env = some (.int j)) :
    run I (packPair (argminConcat a b)) env = some (smallerPair (posVal x i) (posVal y j)) := by
  have hc : run I (le a.1 (.scalar b.1)) env = some (.sc (.b (FloatOps.le x y))) := by
    rw [le, wrap, run_op2 I env _ _ _ ha1 hb1]; rfl
  have h1 : run I (where_ (le a.1 (.scalar b.1)) (.scalar a.1) (.scalar b.1)) env =
      some (.sc (.f (if FloatOps.le x y then x else y))) := by
    rw [where_, wrap, wrap, run_op3 I env _ _ _ _ hc ha1 hb1]; rfl
  have h2 : run I (where_ (le a.1 (.scalar b.1)) (.scalar a.2) (.scalar b.2)) env =
      some (.sc (.i (if FloatOps.le x y then i else j))) := by
    rw [where_, wrap, wrap, run_op3 I env _ _ _ _ hc ha2 hb2]; rfl
  have := run_cons h1 h2
  rw [packPair, argminConcat]
  refine this.trans ?_
  simp only [smallerPair, posVal]
  cases FloatOps.le x y <;> simp

/-- C25: `argmin_monoid.concat` is associative, and `(+inf, 0)` is a right identity. -/
theorem C25_argmin_monoid_partial [FloatOrder F] (I : Ext F) :
    Semigroup (IsPos (F := F)) (opOfExpr I (argminBody 0 1)) smallerPair ∧
      ∀ v : D F, IsPos v → smallerPair v (posVal FloatOrder.inf 0) = v := by
  refine ⟨⟨?_, ?_, ?_⟩, ?_⟩
  · rintro _ _ ⟨x, i, hx, rfl⟩ ⟨y, j, hy, rfl⟩
    rw [opOfExpr, argminBody]
    have e0 : ∀ τ, run I (var 0 τ) (fun s => if s = .var 0 then some (posVal x i) else
        if s = .var 1 then some (posVal y j) else none) = some (posVal x i) :=
      fun τ => by rw [run_var]; rfl
    have e1 : ∀ τ, run I (var 1 τ) (fun s => if s = .var 0 then some (posVal x i) else
        if s = .var 1 then some (posVal y j) else none) = some (posVal y j) :=
      fun τ => by rw [run_var]; rfl
    exact run_argminConcat I _ _ _ x y i j (run_fst (e0 _)) (run_snd (e0 _)) (run_fst (e1 _))
      (run_snd (e1 _))
  · rintro _ _ ⟨x, i, hx, rfl⟩ ⟨y, j, hy, rfl⟩
    simp only [smallerPair, posVal]
    cases FloatOps.le x y
    · exact ⟨y, j, hy, by simp [posVal]⟩
    · exact ⟨x, i, hx, by simp [posVal]⟩
  · rintro _ _ _ ⟨x, i, hx, rfl⟩ ⟨y, j, hy, rfl⟩ ⟨z, k, hz, rfl⟩
    have ht := FloatOrder.le_trans x y z hx hy hz
    have t1 := FloatOrder.le_total x y hx hy
    have t2 := FloatOrder.le_total y z hy hz
    have ht' := FloatOrder.le_trans y x z hy hx hz
    simp only [smallerPair, posVal]
    cases h1 : FloatOps.le x y <;> cases h2 : FloatOps.le y z <;> cases h3 : FloatOps.le x z <;>
      simp_all
  · rintro _ ⟨x, i, hx, rfl⟩
    simp [smallerPair, posVal, FloatOrder.le_inf x hx]

/-- `(+inf, 0)` is not a left identity: against an infinite value at another position it wins. -/
theorem C25_argmin_identity_counterexample [FloatOrder F] (i : Int) (hi : i ≠ 0) :
    smallerPair (posVal FloatOrder.inf 0) (posVal (FloatOrder.inf : F) i) ≠
      posVal FloatOrder.inf i := by
  simp only [smallerPair, posVal, FloatOrder.le_inf (FloatOrder.inf : F) FloatOrder.num_inf, if_true]
  intro h
  simp only [Val.pair.injEq, Val.sc.injEq, Scal.i.injEq, true_and] at h
  exact hi h.symm

/-- The elements of a vector of values with their positions. -/
def withPos (r : Nat → F) (n : Nat) : List (D F) := (List.range n).map fun i => posVal (r i) i

omit [FloatOps F] in
theorem withPos_succ (r : Nat → F) (n : Nat) :
    withPos r (n + 1) = withPos r n ++ [posVal (r n) n] := by
  simp [withPos, List.range_succ]

/-- Scanning from the left, starting with `(+inf, 0)`. -/
theorem scan_argmin [FloatOrder F] (r : Nat → F) (n : Nat) (hn : 0 < n)
    (hr : ∀ i < n, FloatOrder.num (r i)) :
    ∃ k, IsArgmin r n k ∧
      (withPos r n).foldl smallerPair (posVal FloatOrder.inf 0) = posVal (r k) k := by
  induction n with
  | zero => omega
  | succ n ih =>
    rw [withPos_succ, List.foldl_append]
    by_cases h0 : n = 0
    · subst h0
      refine ⟨0, ⟨Nat.zero_lt_one, ?_, by intro j hj; omega⟩, ?_⟩
      · intro j hj
        obtain rfl : j = 0 := by omega
        rcases FloatOrder.le_total (r 0) (r 0) (hr 0 hn) (hr 0 hn) with h | h <;> exact h
      · simp only [withPos, List.range_zero, List.map_nil, List.foldl_nil, List.foldl_cons, smallerPair,
          posVal]
        cases h : FloatOps.le (FloatOrder.inf : F) (r 0)
        · simp
        · rw [FloatOrder.inf_le (r 0) (hr 0 hn) h]; simp
    · obtain ⟨k, hk, he⟩ := ih (by omega) (fun i hi => hr i (by omega))
      rw [he]
      simp only [List.foldl_cons, List.foldl_nil]
      have hkn := hk.lt
      have nk := hr k (by omega)
      have nn := hr n (by omega)
      cases h : FloatOps.le (r k) (r n)
      · refine ⟨n, ⟨by omega, ?_, ?_⟩, by simp [smallerPair, posVal, h]⟩
        · intro j hj
          have h1 : FloatOps.le (r n) (r k) = true := by
            rcases FloatOrder.le_total (r k) (r n) nk nn with h' | h'
            · rw [h] at h'; cases h'
            · exact h'
          by_cases hjn : j = n
          · subst hjn
            rcases FloatOrder.le_total (r j) (r j) nn nn with h | h <;> exact h
          · exact FloatOrder.le_trans _ _ _ nn nk (hr j hj) h1 (hk.least j (by omega))
        · intro j hj
          cases hh : FloatOps.le (r j) (r n)
          · rfl
          · have := FloatOrder.le_trans _ _ _ nk (hr j (by omega)) nn (hk.least j (by omega)) hh
            rw [h] at this; cases this
      · refine ⟨k, ⟨by omega, ?_, hk.first⟩, by simp [smallerPair, posVal, h]⟩
        intro j hj
        by_cases hjn : j = n
        · rw [hjn]; exact h
        · exact hk.least j (by omega)

theorem posVal_zero_of_inf [FloatOrder F] (r : Nat → F) (n : Nat) (hr : ∀ i < n, FloatOrder.num (r i)) :
    (withPos r n).foldl smallerPair (posVal FloatOrder.inf 0) =
      (withPos r n).foldr smallerPair (posVal FloatOrder.inf 0) := by
  obtain ⟨hs, hid⟩ := C25_argmin_monoid_partial (F := F) (fun _ _ => none)
  have hP : ∀ v ∈ withPos r n, IsPos v := by
    intro v hv
    obtain ⟨i, hi, rfl⟩ := List.mem_map.1 hv
    exact ⟨_, _, hr i (List.mem_range.1 hi), rfl⟩
  have hone : IsPos (posVal (FloatOrder.inf : F) 0) := ⟨_, _, FloatOrder.num_inf, rfl⟩
  have key : ∀ (xs : List (D F)) (a : D F), IsPos a → (∀ x ∈ xs, IsPos x) →
      xs.foldl smallerPair a = smallerPair a (xs.foldr smallerPair (posVal FloatOrder.inf 0)) ∧
        IsPos (xs.foldr smallerPair (posVal (FloatOrder.inf : F) 0)) := by
    intro xs
    induction xs with
    | nil => intro a ha _; exact ⟨(hid a ha).symm, hone⟩
    | cons x xs ih =>
      intro a ha hx
      have px := hx x (by simp)
      obtain ⟨h1, h2⟩ := ih (smallerPair a x) (hs.closed _ _ ha px) (fun y hy => hx y (by simp [hy]))
      exact ⟨by rw [List.foldl_cons, h1, List.foldr_cons, hs.assoc _ _ _ ha px h2],
        hs.closed _ _ px h2⟩
  cases n with
  | zero => rfl
  | succ n =>
    have e : withPos r (n + 1) = posVal (r 0) 0 :: ((List.range n).map fun i => posVal (r (i + 1)) ((i : Int) + 1)) := by
      simp only [withPos, List.range_succ_eq_map, List.map_cons, List.map_map]
      rfl
    rw [e] at hP ⊢
    have h0 : IsPos (posVal (r 0) 0) := hP _ (by simp)
    have hfirst : smallerPair (posVal FloatOrder.inf 0) (posVal (r 0) 0) = posVal (r 0) 0 := by
      simp only [smallerPair, posVal]
      cases h : FloatOps.le (FloatOrder.inf : F) (r 0)
      · simp
      · rw [FloatOrder.inf_le (r 0) (hr 0 (by omega)) h]; simp
    rw [List.foldl_cons, List.foldr_cons, hfirst]
    exact (key _ _ h0 (fun x hx => hP x (by simp [hx]))).1

/-- C25: `reduce_argmin` on the array backends and on the interpreter return the first position of a
smallest element. -/
theorem C25_reduce_argmin [FloatOrder F] (I : Ext F) (r : Nat → F) (n : Nat) (hn : 0 < n)
    (hr : ∀ i < n, FloatOrder.num (r i)) :
    ∃ k, IsArgmin r n k ∧
      treeReduce (opOfExpr I (argminBody 0 1)) (posVal FloatOrder.inf 0) (withPos r n) =
        some (posVal (r k) k) ∧
      reduceOf (some (posVal FloatOrder.inf 0)) [some (.vec (withPos r n))]
        (opOfExpr I (argminBody 0 1)) = some (posVal (r k) k) := by
  obtain ⟨k, hk, he⟩ := scan_argmin r n hn hr
  have hs := (C25_argmin_monoid_partial (F := F) I).1
  have hP : ∀ v ∈ withPos r n, IsPos v := by
    intro v hv
    obtain ⟨i, hi, rfl⟩ := List.mem_map.1 hv
    exact ⟨_, _, hr i (List.mem_range.1 hi), rfl⟩
  have hone : IsPos (posVal (FloatOrder.inf : F) 0) := ⟨_, _, FloatOrder.num_inf, rfl⟩
  refine ⟨k, hk, ?_, ?_⟩
  · rw [C05_tree_reduce_associative hs _ _ hone hP, ← posVal_zero_of_inf r n hr, he]
  · rw [reduceOf_single, loopOpt_foldl hs _ _ hone hP, he]

/-- C25: `fold_argmin(f, count)` returns the first position of a smallest element. `fe` is the expression
built by `f` from the counter `c`; it does not depend on the accumulator `a`. -/
theorem C25_fold_argmin [FloatOrder F] (I : Ext F) (env : Env (D F)) (c a : Nat) (hca : c ≠ a)
    (count fe : Expr F) (r : Nat → F) (n : Nat) (hn : 0 < n) (hr : ∀ i < n, FloatOrder.num (r i))
    (hcount : run I count env = some (.int n))
    (hfe : ∀ i < n, ∀ acc : D F,
      run I fe ((env.set (.var a) (some acc)).set (.var c) (some (.int i))) = some (.sc (.f (r i)))) :
    ∃ k : Nat, IsArgmin r n k ∧
      run I (foldArgmin FloatOrder.inf c a count fe) env = some (.int k) := by
  obtain ⟨k, hk, he⟩ := scan_argmin r n hn hr
  refine ⟨k, hk, ?_⟩
  rw [foldArgmin]
  refine run_snd (a := .sc (.f (r k))) ?_
  rw [fold, run_node]
  simp only [List.map_cons, List.map_nil, runDen, hcount]
  have hinit : run I (packPair (const (.f FloatOrder.inf), const (.i 0))) env =
      some (posVal (FloatOrder.inf : F) 0) := run_cons (run_const I env _) (run_const I env _)
  rw [hinit]
  simp only [foldOf, Option.bind_some, Val.asInt, Int.toNat_natCast]
  rw [show (Val.sc (Scal.f (r k))).pair (Val.int (k : Int)) = posVal (r k) k from rfl, ← he]
  have key : ∀ (l : List Nat) (x : F) (j : Int), (∀ i ∈ l, i < n) →
      loopOpt (fun (acc : D F) (i : Nat) => run I (packPair (argminConcat
        (unpackPair (var a (.pair (.scalar .float) (.scalar .int)))) (fe, var c (.scalar .int))))
          ((env.set (.var a) (some acc)).set (.var c) (some (.int i)))) (posVal x j) l =
        some ((l.map fun i : Nat => posVal (r i) i).foldl smallerPair (posVal x j)) := by
    intro l
    induction l with
    | nil => intro x j _; rfl
    | cons i l ih =>
      intro x j hl
      have ha : run I (var a (.pair (.scalar .float) (.scalar .int)))
          ((env.set (.var a) (some (posVal x j))).set (.var c) (some (.int i))) = some (posVal x j) := by
        rw [run_var]; simp [Env.set, Ne.symm hca]
      have hc : run I (var c (.scalar .int))
          ((env.set (.var a) (some (posVal x j))).set (.var c) (some (.int i))) = some (.int i) := by
        rw [run_var]; simp [Env.set]
      have := run_argminConcat I ((env.set (.var a) (some (posVal x j))).set (.var c) (some (.int i)))
        (unpackPair (var a (.pair (.scalar .float) (.scalar .int)))) (fe, var c (.scalar .int)) x (r i) j i
        (run_fst ha) (run_snd ha) (hfe i (hl i (by simp)) _) hc
      rw [loopOpt, this, Option.bind_some, List.map_cons, List.foldl_cons]
      have hc' : ∃ (x' : F) (j' : Int), smallerPair (posVal x j) (posVal (r i) i) = posVal x' j' := by
        simp only [smallerPair, posVal]
        cases FloatOps.le x (r i)
        · exact ⟨_, _, by simp; exact ⟨rfl, rfl⟩⟩
        · exact ⟨_, _, by simp; exact ⟨rfl, rfl⟩⟩
      obtain ⟨x', j', h'⟩ := hc'
      rw [h']
      exact ih x' j' (fun i hi => hl i (by simp [hi]))
  exact key (List.range n) _ 0 (fun i hi => List.mem_range.1 hi)

/-- Non-vacuity: all elements infinite, and ties. -/
example :
    let I : Ext Toy.Fl := fun _ _ => none
    let op := opOfExpr I (argminBody 0 1)
    treeReduce op (posVal .inf 0) (withPos (fun _ => Toy.Fl.inf) 3) = some (posVal .inf 0) ∧
    treeReduce op (posVal .inf 0) (withPos (fun i => Toy.Fl.fin (if i < 2 then 7 else 4)) 5) =
      some (posVal (.fin 4) 2) := by decide +kernel

end Verif.Props
