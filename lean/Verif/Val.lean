import Mathlib.Data.List.Basic
import Mathlib.Tactic.Common

/-!
Scalars, types and values (`ein/phi/type_system.py`, `ein/value.py`).

* `int64` is modelled by unbounded `Int` (no wrap-around); floating point numbers are an abstract type
  `F` with uninterpreted operations (`FloatOps`).
* A value is a nested structure: scalar, vector of values, pair of values. NumPy arrays are the values
  built from scalars and vectors that are rectangular. The inner lengths of an empty vector are not
  represented (NumPy's `shape == (0, 3)`).
-/

namespace Verif

/-- `ScalarKind` (`type_system.py:24`) -/
inductive Kind where
  | bool | int | float
deriving DecidableEq, Repr

/-- `Type` (`type_system.py:23`): `Scalar` (37), `Vector` (63), `Pair` (78). -/
inductive Ty where
  | scalar (k : Kind)
  | vector (elem : Ty)
  | pair (fst snd : Ty)
deriving DecidableEq, Repr

/-- The floating point operations used by scalar operators, uninterpreted. -/
class FloatOps (F : Type) where
  ofInt : Int → F
  neg : F → F
  recip : F → F
  exp : F → F
  sin : F → F
  cos : F → F
  add : F → F → F
  sub : F → F → F
  mul : F → F → F
  pow : F → F → F
  min : F → F → F
  max : F → F → F
  lt : F → F → Bool
  le : F → F → Bool
  eq : F → F → Bool

/-- A scalar value: one entry of an array of dtype bool, int or float. -/
inductive Scal (F : Type) where
  | b (x : Bool)
  | i (x : Int)
  | f (x : F)
deriving DecidableEq, Repr

/-- The kind of a scalar value (`Scalar.from_dtype`, `type_system.py:44-53`). -/
def Scal.kind {F : Type} : Scal F → Kind
  | .b _ => .bool
  | .i _ => .int
  | .f _ => .float

/-- The scalar operators (`phi.py:445-589`). -/
inductive ScalarOp where
  | negate | reciprocal | exp | sin | cos | logicalNot | castToFloat
  | add | subtract | multiply | modulo | power | min | max
  | less | lessEqual | equal | notEqual | logicalAnd | logicalOr
  | where_
deriving DecidableEq, Repr

/-- `numpy.mod` on integers: the result has the sign of the divisor; `x mod 0 = 0`. -/
def intMod (a b : Int) : Int := if b = 0 then 0 else Int.fmod a b

/-- The ufunc of each operator class (`phi.py:445-589`) on scalars of the kinds its signature allows;
`none` for operands outside the signature. -/
def applyOp {F : Type} [FloatOps F] : ScalarOp → List (Scal F) → Option (Scal F)
  | .negate, [.i x] => some (.i (-x))
  | .negate, [.f x] => some (.f (FloatOps.neg x))
  | .reciprocal, [.f x] => some (.f (FloatOps.recip x))
  | .exp, [.f x] => some (.f (FloatOps.exp x))
  | .sin, [.f x] => some (.f (FloatOps.sin x))
  | .cos, [.f x] => some (.f (FloatOps.cos x))
  | .logicalNot, [.b x] => some (.b (!x))
  | .castToFloat, [.i x] => some (.f (FloatOps.ofInt x))
  | .add, [.i x, .i y] => some (.i (x + y))
  | .add, [.f x, .f y] => some (.f (FloatOps.add x y))
  | .subtract, [.i x, .i y] => some (.i (x - y))
  | .subtract, [.f x, .f y] => some (.f (FloatOps.sub x y))
  | .multiply, [.i x, .i y] => some (.i (x * y))
  | .multiply, [.f x, .f y] => some (.f (FloatOps.mul x y))
  | .modulo, [.i x, .i y] => some (.i (intMod x y))
  | .power, [.f x, .f y] => some (.f (FloatOps.pow x y))
  | .min, [.i x, .i y] => some (.i (Min.min x y))
  | .min, [.f x, .f y] => some (.f (FloatOps.min x y))
  | .max, [.i x, .i y] => some (.i (Max.max x y))
  | .max, [.f x, .f y] => some (.f (FloatOps.max x y))
  | .less, [.i x, .i y] => some (.b (decide (x < y)))
  | .less, [.f x, .f y] => some (.b (FloatOps.lt x y))
  | .lessEqual, [.i x, .i y] => some (.b (decide (x ≤ y)))
  | .lessEqual, [.f x, .f y] => some (.b (FloatOps.le x y))
  | .equal, [.i x, .i y] => some (.b (decide (x = y)))
  | .equal, [.f x, .f y] => some (.b (FloatOps.eq x y))
  | .notEqual, [.i x, .i y] => some (.b (decide (x ≠ y)))
  | .notEqual, [.f x, .f y] => some (.b (!FloatOps.eq x y))
  | .logicalAnd, [.b x, .b y] => some (.b (x && y))
  | .logicalOr, [.b x, .b y] => some (.b (x || y))
  | .where_, [.b c, .b x, .b y] => some (.b (if c then x else y))
  | .where_, [.b c, .i x, .i y] => some (.i (if c then x else y))
  | .where_, [.b c, .f x, .f y] => some (.f (if c then x else y))
  | _, _ => none

/-- Values (`ein/value.py:33`), generic in the type of scalars. -/
inductive Val (S : Type) where
  | sc (s : S)
  | vec (vs : List (Val S))
  | pair (a b : Val S)

namespace Val
variable {S T : Type}

/-- Induction over values. -/
theorem ind {P : Val S → Prop} (sc : ∀ s, P (.sc s)) (vec : ∀ vs, (∀ v ∈ vs, P v) → P (.vec vs))
    (pair : ∀ a b, P a → P b → P (.pair a b)) : ∀ v, P v
  | .sc s => sc s
  | .vec vs => vec vs (fun v _ => ind sc vec pair v)
  | .pair a b => pair a b (ind sc vec pair a) (ind sc vec pair b)

mutual
def beq [DecidableEq S] : Val S → Val S → Bool
  | .sc s, .sc t => decide (s = t)
  | .vec vs, .vec ws => beqList vs ws
  | .pair a b, .pair c d => beq a c && beq b d
  | _, _ => false
def beqList [DecidableEq S] : List (Val S) → List (Val S) → Bool
  | [], [] => true
  | v :: vs, w :: ws => beq v w && beqList vs ws
  | _, _ => false
end

mutual
theorem eq_of_beq' [DecidableEq S] : ∀ (v w : Val S), beq v w = true → v = w
  | .sc s, .sc t, e => by simp only [beq, decide_eq_true_eq] at e; rw [e]
  | .vec vs, .vec ws, e => by simp only [beq] at e; rw [eq_of_beqList vs ws e]
  | .pair a b, .pair c d, e => by
    simp only [beq, Bool.and_eq_true] at e
    rw [eq_of_beq' a c e.1, eq_of_beq' b d e.2]
  | .sc _, .vec _, e => by simp [beq] at e
  | .sc _, .pair _ _, e => by simp [beq] at e
  | .vec _, .sc _, e => by simp [beq] at e
  | .vec _, .pair _ _, e => by simp [beq] at e
  | .pair _ _, .sc _, e => by simp [beq] at e
  | .pair _ _, .vec _, e => by simp [beq] at e
theorem eq_of_beqList [DecidableEq S] : ∀ (vs ws : List (Val S)), beqList vs ws = true → vs = ws
  | [], [], _ => rfl
  | v :: vs, w :: ws, e => by
    simp only [beqList, Bool.and_eq_true] at e
    rw [eq_of_beq' v w e.1, eq_of_beqList vs ws e.2]
  | [], _ :: _, e => by simp [beqList] at e
  | _ :: _, [], e => by simp [beqList] at e
end

mutual
theorem beq_self [DecidableEq S] : ∀ (v : Val S), beq v v = true
  | .sc s => by simp [beq]
  | .vec vs => by simp [beq, beqList_self vs]
  | .pair a b => by simp [beq, beq_self a, beq_self b]
theorem beqList_self [DecidableEq S] : ∀ (vs : List (Val S)), beqList vs vs = true
  | [] => rfl
  | v :: vs => by simp [beqList, beq_self v, beqList_self vs]
end

instance [DecidableEq S] : DecidableEq (Val S) := fun v w =>
  if e : beq v w = true then isTrue (eq_of_beq' v w e)
  else isFalse (fun h => e (h ▸ beq_self v))

mutual
/-- Apply a function to every scalar. -/
def map (f : S → T) : Val S → Val T
  | .sc s => .sc (f s)
  | .vec vs => .vec (mapList f vs)
  | .pair a b => .pair (map f a) (map f b)
def mapList (f : S → T) : List (Val S) → List (Val T)
  | [] => []
  | v :: vs => map f v :: mapList f vs
end

theorem mapList_eq (f : S → T) (vs : List (Val S)) : mapList f vs = vs.map (map f) := by
  induction vs with
  | nil => rfl
  | cons v vs ih => simp [mapList, ih]

theorem map_vec (f : S → T) (vs : List (Val S)) : map f (.vec vs) = .vec (vs.map (map f)) := by
  rw [map, mapList_eq]

/-- The shape of a value: all scalars erased. -/
def shape (v : Val S) : Val Unit := map (fun _ => ()) v

/-- Do all values have the same shape? NumPy rejects ragged arrays (`numpy.array([...])`,
`naive.py:20`). -/
def uniform : List (Val S) → Bool
  | [] => true
  | v :: vs => vs.all (fun w => decide (shape w = shape v))

theorem uniform_iff {vs : List (Val S)} :
    uniform vs = true ↔ ∀ v ∈ vs, ∀ w ∈ vs, shape v = shape w := by
  cases vs with
  | nil => simp [uniform]
  | cons v vs =>
    simp only [uniform, List.all_eq_true, decide_eq_true_eq]
    constructor
    · intro h a ha b hb
      have : ∀ x ∈ v :: vs, shape x = shape v := by
        intro x hx
        rcases List.mem_cons.1 hx with rfl | hx
        · rfl
        · exact h x hx
      rw [this a ha, this b hb]
    · intro h w hw
      exact h w (List.mem_cons_of_mem _ hw) v List.mem_cons_self

/-- Length along an axis (`shape[axis]`, `naive.py:68-69`); `none` if there is no such axis, or it is
below an empty axis and hence not represented. -/
def dim : Nat → Val S → Option Nat
  | 0, .vec vs => some vs.length
  | k + 1, .vec (v :: _) => dim k v
  | _, _ => none

/-- The position read by `numpy.take(..., mode="clip")` in a dimension of length `n > 0`. -/
def clip (n : Nat) (i : Int) : Nat := (Max.max 0 (Min.min i (n - 1))).toNat

theorem clip_lt {n : Nat} (hn : 0 < n) (i : Int) : clip n i < n := by
  unfold clip; omega

/-- Clamped read (`naive.py:49-54`); `none` on an empty vector (the code returns uninitialised
memory). -/
def get (vs : List (Val S)) (i : Int) : Option (Val S) := vs[clip vs.length i]?

end Val

/-- The integer in a scalar value. -/
def Val.asInt {F : Type} : Val (Scal F) → Option Int
  | .sc (.i n) => some n
  | _ => none

/-- The scalar in a scalar value. -/
def Val.asScal {F : Type} : Val (Scal F) → Option (Scal F)
  | .sc s => some s
  | _ => none

/-- The elements of a vector value. -/
def Val.asVec {S : Type} : Val S → Option (List (Val S))
  | .vec vs => some vs
  | _ => none

/-- An integer value. -/
abbrev Val.int {F : Type} (n : Int) : Val (Scal F) := .sc (.i n)

/-- `v` is a value of type `τ` (`Value.type`, `ein/value.py:97-104`). An empty vector has every
vector type: NumPy's dtype and rank of an empty array are not represented. -/
inductive HasType {F : Type} : Val (Scal F) → Ty → Prop
  | sc (s : Scal F) : HasType (.sc s) (.scalar s.kind)
  | vec {vs : List (Val (Scal F))} {τ : Ty} : (∀ v ∈ vs, HasType v τ) → HasType (.vec vs) (.vector τ)
  | pair {a b : Val (Scal F)} {σ τ : Ty} : HasType a σ → HasType b τ → HasType (.pair a b) (.pair σ τ)

end Verif
