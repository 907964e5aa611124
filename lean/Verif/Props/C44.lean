import Verif.Props.C43
import Mathlib.LinearAlgebra.Matrix.Trace

/-!
# C44: programs on matrices

The programs with which a user of the library computes with matrices and vectors compute what they are written for, for matrices
of all sizes: the matrix product, the product of a matrix and a vector, the outer product, the transposed matrix, the trace,
the triangular mask, factorials, and the least element with its position. The specification is Mathlib's `Matrix`. Numbers are exact; the sizes of arguments whose
sizes are inferred are positive.
-/

set_option linter.unusedSectionVars false

namespace Verif.Props
open Verif.Phi Verif.Term Verif.Midend Verif.Codegen Verif.Frontend
variable {F : Type} [FloatOps F]

/-! ### Specification -/

/-- A vector as an array. -/
def vectorVal {n : Nat} (u : Fin n → F) : PVal F := .arr (List.ofFn fun i => .sc (.f (u i)))

/-- A matrix as an array of its rows. -/
def matrixVal {m n : Nat} (A : Matrix (Fin m) (Fin n) F) : PVal F := .arr (List.ofFn fun i => vectorVal fun j => A i j)

/-- The types of arguments. -/
def vectorTy : UTy := .arr (.sc .float)
def matrixUTy : UTy := .arr (.arr (.sc .float))

/-! ### The programs -/

/-- `lambda x, y: array(lambda i, j: fold_sum(lambda k: x[i, k] * y[k, j]))` -/
def productScript (zero : F) : Script F :=
  .auto 1 (foldSum zero none (.bin .mul (.item (.item (.loc 4) (.loc 3)) (.loc 0)) (.item (.item (.loc 5) (.loc 0)) (.loc 2))))

/-- `lambda x, y: array(lambda i: reduce_sum(lambda k: x[i, k] * y[k]))` -/
def applyScript (zero : F) : Script F :=
  .auto 0 (reduceSum zero none (.bin .mul (.item (.item (.loc 2) (.loc 1)) (.loc 0)) (.item (.loc 3) (.loc 0))))

/-- `lambda u, v: array(lambda i, j: u[i] * v[j])` (`README.md`) -/
def outerScript : Script F := .auto 1 (.bin .mul (.item (.loc 2) (.loc 1)) (.item (.loc 3) (.loc 0)))

/-- `lambda x: array(lambda i, j: x[j, i])` -/
def transposeScript : Script F := .auto 1 (.item (.item (.loc 2) (.loc 0)) (.loc 1))

/-- `lambda x: fold_sum(lambda i: x[i, i])` -/
def traceScript (zero : F) : Script F := foldSum zero none (.item (.item (.loc 2) (.loc 0)) (.loc 0))

/-- `array(lambda i, j: where(i <= j, 1.0, 0.0), size=(m, n))` (`README.md`) -/
def maskScript (zero one : F) (m n : Nat) : Script F :=
  .array (.lit (.i m)) (.array (.lit (.i n)) (.choose (.bin .le (.loc 1) (.loc 0)) (.lit (.f one)) (.lit (.f zero))))

/-- `fold(1, lambda i, acc: acc * (i + 1), count=n)` (`README.md`) -/
def factorialScript (n : Nat) : Script F := .fold (.lit (.i n)) (.lit (.i 1)) (.bin .mul (.loc 1) (.bin .add (.loc 0) (.lit (.i 1))))

/-- `{"value": x, "index": i}` -/
def entryOf (x i : Script F) : Script F := .record .dict (.cons "value" x (.cons "index" i .nil))

/-- `lambda x, y: where(x["value"] < y["value"], x, y)`, where `where` selects each component (`std.py:12-22`) -/
def lesserEntry : Script F :=
  .assign (.bin .lt (.field (.loc 0) "value") (.field (.loc 1) "value"))
    (entryOf (.choose (.loc 0) (.field (.loc 1) "value") (.field (.loc 2) "value")) (.choose (.loc 0) (.field (.loc 1) "index") (.field (.loc 2) "index")))

/-- `lambda a: array(lambda i: {"value": a[i], "index": i}).reduce({"value": float("inf"), "index": 0}, …)` (`README.md`) -/
def leastScript (inf : F) : Script F :=
  .reduce (.auto 0 (entryOf (.item (.loc 1) (.loc 0)) (.loc 0))) (entryOf (.lit (.f inf)) (.lit (.i 0))) lesserEntry

/-- `k` is the last position of a least element. -/
structure IsLastArgmin {n : Nat} (u : Fin n → F) (k : Fin n) : Prop where
  least : ∀ j, FloatOps.le (u k) (u j) = true
  last : ∀ j, k < j → FloatOps.le (u j) (u k) = false

/-- The value of the result. -/
def entryVal (a : F × Int) : PVal F := .record .dict [("value", .sc (.f a.1)), ("index", .sc (.i a.2))]

/-! ### Arrays -/

theorem mapOpt_fin {n : Nat} {f : Nat → Option (PVal F)} {h : Fin n → PVal F} (H : ∀ i : Fin n, f i = some (h i)) :
    Phi.mapOpt f (List.range n) = some (List.ofFn h) := by
  rw [mapOpt_numbers (h := fun i => (f i).getD (.arr [])) fun i hi => by rw [H ⟨i, hi⟩]; rfl]
  congr 1
  refine List.ext_getElem (by simp) fun i h1 h2 => ?_
  have hi : i < n := by simpa using h2
  simp [H ⟨i, hi⟩]

omit [FloatOps F] in
theorem rows_fin {n : Nat} {h : Fin n → PVal F} (hs : ∀ i j, PVal.sameShape (h i) (h j) = true) :
    rows (List.ofFn h) = some (.arr (List.ofFn h)) := by
  rw [rows, if_pos]
  simp only [List.all_eq_true, List.mem_ofFn]
  rintro _ ⟨i, rfl⟩ _ ⟨j, rfl⟩
  exact hs i j

omit [FloatOps F] in
theorem vector_sameShape {n : Nat} (u v : Fin n → F) : PVal.sameShape (vectorVal u) (vectorVal v) = true := by
  simp only [vectorVal, PVal.sameShape]
  induction n with
  | zero => simp [PVal.sameShapes]
  | succ n ih => simp only [List.ofFn_succ, PVal.sameShapes, PVal.sameShape, Bool.true_and]; exact ih (fun i => u i.succ) fun i => v i.succ

omit [FloatOps F] in
theorem element_fin {n : Nat} (h : Fin n → PVal F) (k : Fin n) : elementAt (List.ofFn h) ((k : Nat) : Int) = some (h k) := by
  have := k.isLt
  rw [elementAt, show (Max.max 0 (Min.min ((k : Nat) : Int) (((List.ofFn h).length : Int) - 1))).toNat = k by simp; omega]
  simp

omit [FloatOps F] in
theorem extent_vector {n : Nat} (u : Fin n → F) : extent 0 (vectorVal u) = some n := by simp [vectorVal, extent]

omit [FloatOps F] in
theorem extent_matrix {m n : Nat} (A : Matrix (Fin m) (Fin n) F) : extent 0 (matrixVal A) = some m := by simp [matrixVal, extent]

omit [FloatOps F] in
theorem extent_columns {m n : Nat} (hm : 0 < m) (A : Matrix (Fin m) (Fin n) F) : extent 1 (matrixVal A) = some n := by
  obtain ⟨m, rfl⟩ : ∃ k, m = k + 1 := ⟨m - 1, by omega⟩
  simp [matrixVal, List.ofFn_succ, extent, extent_vector]

/-- Reading a vector, and a matrix. -/
theorem read_vector {n : Nat} {u : Fin n → F} {x i : Script F} {vs : List (PVal F)} {k : Nat} (hk : k < n) (hx : tells x vs = some (vectorVal u))
    (hi : tells i vs = some (.sc (.i k))) : tells (.item x i) vs = some (.sc (.f (u ⟨k, hk⟩))) := by
  rw [tells, hx, hi]
  simpa [toList, toInt, vectorVal] using element_fin (fun i => PVal.sc (.f (u i))) ⟨k, hk⟩

theorem read_matrix {m n : Nat} {A : Matrix (Fin m) (Fin n) F} {x i : Script F} {vs : List (PVal F)} {k : Nat} (hk : k < m)
    (hx : tells x vs = some (matrixVal A)) (hi : tells i vs = some (.sc (.i k))) : tells (.item x i) vs = some (vectorVal fun j => A ⟨k, hk⟩ j) := by
  rw [tells, hx, hi]
  simpa [toList, toInt, matrixVal] using element_fin (fun i => vectorVal fun j => A i j) ⟨k, hk⟩

theorem table_vector {n : Nat} {f : List Nat → Option (PVal F)} (u : Fin n → F) (h : ∀ i : Fin n, f [i] = some (.sc (.f (u i)))) :
    table [n] f = some (vectorVal u) := by
  simp only [table]
  rw [mapOpt_fin (h := fun i => .sc (.f (u i))) h, Option.bind_some, rows_fin fun _ _ => rfl]
  rfl

theorem table_matrix {m n : Nat} {f : List Nat → Option (PVal F)} (A : Matrix (Fin m) (Fin n) F)
    (h : ∀ i : Fin m, ∀ j : Fin n, f [i, j] = some (.sc (.f (A i j)))) : table [m, n] f = some (matrixVal A) := by
  rw [table, mapOpt_fin (h := fun i => vectorVal fun j => A i j) fun i => table_vector (fun j => A i j) (h i), Option.bind_some]
  exact rows_fin fun i i' => vector_sameShape (fun j => A i j) fun j => A i' j

/-! ### What the programs tell -/

section exact
variable [Field F] [LinearOrder F] [ExactFloat F]

theorem mul_tells {a b : Script F} {vs : List (PVal F)} {x y : F} (ha : tells a vs = some (.sc (.f x))) (hb : tells b vs = some (.sc (.f y))) :
    tells (.bin .mul a b) vs = some (.sc (.f (x * y))) := by
  rw [tells, ha, hb]
  simp [toScal, applyPy, applyOp, ExactFloat.mul]

theorem product_tells {m p n : Nat} (hm : 0 < m) (hp : 0 < p) (hn : 0 < n) (A : Matrix (Fin m) (Fin p) F) (B : Matrix (Fin p) (Fin n) F) :
    tells (productScript 0) [matrixVal A, matrixVal B] = some (matrixVal (A * B)) := by
  have hu : usesAll (foldSum (0 : F) none (.bin .mul (.item (.item (.loc 4) (.loc 3)) (.loc 0)) (.item (.item (.loc 5) (.loc 0)) (.loc 2)))) 1 =
      some [[(⟨0, []⟩, 0)], [(⟨1, []⟩, 1)]] := rfl
  have hc : Phi.mapOpt (common [matrixVal A, matrixVal B]) [[(⟨0, []⟩, 0)], [(⟨1, []⟩, 1)]] = some [m, n] := by
    simp [Phi.mapOpt, common, Place.val, extent_matrix, extent_columns hp, hm, hn]
  rw [productScript, tells, hu, Option.bind_some, hc, Option.bind_some]
  refine table_matrix _ fun i j => ?_
  simp only [List.map_cons, List.map_nil, List.reverse_cons, List.reverse_nil, List.nil_append, List.cons_append]
  rw [C43_fold_sum none _ _ p (fun k => if h : k < p then A i ⟨k, h⟩ * B ⟨k, h⟩ j else 0)]
  · rw [Finset.sum_range, Matrix.mul_apply]
    simp
  · have : uses (.bin .mul (.item (.item (.loc 4) (.loc 3)) (.loc 0)) (.item (.item (.loc 5) (.loc 0)) (.loc 2)) : Script F) 2 0 =
        some [(⟨2, []⟩, 1), (⟨3, []⟩, 0)] := rfl
    simp [Rounds, this, common, Phi.mapOpt, Place.val, extent_matrix, extent_columns hm, hp]
  · intro k hk a
    simp only [dif_pos hk]
    exact mul_tells (read_vector hk (read_matrix i.isLt rfl rfl) rfl) (read_vector j.isLt (read_matrix hk rfl rfl) rfl)

theorem apply_tells {m p : Nat} (hm : 0 < m) (hp : 0 < p) (A : Matrix (Fin m) (Fin p) F) (u : Fin p → F) :
    tells (applyScript 0) [matrixVal A, vectorVal u] = some (vectorVal (A.mulVec u)) := by
  have hu : usesAll (reduceSum (0 : F) none (.bin .mul (.item (.item (.loc 2) (.loc 1)) (.loc 0)) (.item (.loc 3) (.loc 0)))) 0 =
      some [[(⟨0, []⟩, 0)]] := rfl
  have hc : Phi.mapOpt (common [matrixVal A, vectorVal u]) [[(⟨0, []⟩, 0)]] = some [m] := by
    simp [Phi.mapOpt, common, Place.val, extent_matrix, hm]
  rw [applyScript, tells, hu, Option.bind_some, hc, Option.bind_some]
  refine table_vector _ fun i => ?_
  simp only [List.map_cons, List.map_nil, List.reverse_cons, List.reverse_nil, List.nil_append, List.cons_append]
  rw [C43_reduce_sum none _ _ p (fun k => if h : k < p then A i ⟨k, h⟩ * u ⟨k, h⟩ else 0)]
  · rw [Finset.sum_range, Matrix.mulVec, dotProduct]
    simp
  · have : uses (.bin .mul (.item (.item (.loc 2) (.loc 1)) (.loc 0)) (.item (.loc 3) (.loc 0)) : Script F) 1 0 =
        some [(⟨1, []⟩, 1), (⟨2, []⟩, 0)] := rfl
    simp [Rounds, this, common, Phi.mapOpt, Place.val, extent_vector, extent_columns hm, hp]
  · intro k hk
    simp only [dif_pos hk]
    exact mul_tells (read_vector hk (read_matrix i.isLt rfl rfl) rfl) (read_vector hk rfl rfl)

theorem outer_tells {m n : Nat} (hm : 0 < m) (hn : 0 < n) (u : Fin m → F) (v : Fin n → F) :
    tells outerScript [vectorVal u, vectorVal v] = some (matrixVal (Matrix.vecMulVec u v)) := by
  have hu : usesAll (.bin .mul (.item (.loc 2) (.loc 1)) (.item (.loc 3) (.loc 0)) : Script F) 1 = some [[(⟨0, []⟩, 0)], [(⟨1, []⟩, 0)]] := rfl
  have hc : Phi.mapOpt (common [vectorVal u, vectorVal v]) [[(⟨0, []⟩, 0)], [(⟨1, []⟩, 0)]] = some [m, n] := by
    simp [Phi.mapOpt, common, Place.val, extent_vector, hm, hn]
  rw [outerScript, tells, hu, Option.bind_some, hc, Option.bind_some]
  refine table_matrix _ fun i j => ?_
  exact mul_tells (read_vector i.isLt rfl rfl) (read_vector j.isLt rfl rfl)

theorem trace_tells {n : Nat} (hn : 0 < n) (A : Matrix (Fin n) (Fin n) F) :
    tells (traceScript 0) [matrixVal A] = some (.sc (.f A.trace)) := by
  rw [traceScript, C43_fold_sum none _ _ n (fun k => if h : k < n then A ⟨k, h⟩ ⟨k, h⟩ else 0)]
  · rw [Finset.sum_range, Matrix.trace]
    simp
  · have : uses (.item (.item (.loc 2) (.loc 0)) (.loc 0) : Script F) 2 0 = some [(⟨0, []⟩, 1), (⟨0, []⟩, 0)] := rfl
    simp [Rounds, this, common, Phi.mapOpt, Place.val, extent_matrix, extent_columns hn, hn]
  · intro k hk a
    simp only [dif_pos hk]
    exact read_vector hk (read_matrix hk rfl rfl) rfl

end exact

theorem transpose_tells {m n : Nat} (hm : 0 < m) (hn : 0 < n) (A : Matrix (Fin m) (Fin n) F) :
    tells transposeScript [matrixVal A] = some (matrixVal A.transpose) := by
  have hu : usesAll (.item (.item (.loc 2) (.loc 0)) (.loc 1) : Script F) 1 = some [[(⟨0, []⟩, 1)], [(⟨0, []⟩, 0)]] := rfl
  have hc : Phi.mapOpt (common [matrixVal A]) [[(⟨0, []⟩, 1)], [(⟨0, []⟩, 0)]] = some [n, m] := by
    simp [Phi.mapOpt, common, Place.val, extent_matrix, extent_columns hm, hm, hn]
  rw [transposeScript, tells, hu, Option.bind_some, hc, Option.bind_some]
  refine table_matrix _ fun i j => ?_
  exact read_vector i.isLt (read_matrix j.isLt rfl rfl) rfl

theorem mask_tells (zero one : F) (m n : Nat) :
    tells (maskScript zero one m n) [] =
      some (matrixVal (Matrix.of fun (i : Fin m) (j : Fin n) => if (i : Nat) ≤ j then one else zero)) := by
  have inner : ∀ i : Fin m, tells (.array (.lit (.i n)) (.choose (.bin .le (.loc 1) (.loc 0)) (.lit (.f one)) (.lit (.f zero)))) [.sc (.i i)] =
      some (vectorVal fun j : Fin n => if (i : Nat) ≤ j then one else zero) := by
    intro i
    rw [tells, tells]
    simp only [Option.bind_some, toInt, Int.toNat_natCast]
    rw [mapOpt_fin (h := fun j => .sc (.f (if (i : Nat) ≤ j then one else zero))), Option.bind_some, rows_fin fun _ _ => rfl]
    · rfl
    · intro j
      simp only [tells, List.getElem?_cons_succ, List.getElem?_cons_zero, Option.bind_some, toScal, applyPy, applyOp, Option.map_some]
      by_cases h : (i : Nat) ≤ j <;> simp [h]
  rw [maskScript, tells, tells]
  simp only [Option.bind_some, toInt, Int.toNat_natCast]
  rw [mapOpt_fin inner, Option.bind_some]
  exact rows_fin fun i i' => vector_sameShape (fun j => _) fun j => _

theorem factorial_tells (n : Nat) : tells (factorialScript n : Script F) [] = some (.sc (.i n.factorial)) := by
  rw [factorialScript, tells, tells, tells]
  simp only [Option.bind_some, toInt, Int.toNat_natCast]
  refine (loop_foldl (e := fun k : Nat => (.sc (.i k) : PVal F)) (g := fun a i => a * (i + 1)) (List.range n) 1 ?_).trans ?_
  rotate_left
  · congr 3
    induction n with
    | zero => rfl
    | succ n ih =>
      rw [List.range_succ, List.foldl_append, Nat.factorial_succ]
      have := Int.natCast_inj.1 ih
      rw [this]
      simp [Nat.mul_comm]
  · intro i _ a
    simp [tells, toScal, applyPy, applyOp]

/-- The last least element of those at positions less than `m`. -/
theorem scan_last [FloatOrder F] {n : Nat} (u : Fin n → F) (hu : ∀ i, FloatOrder.num (u i)) (m : Nat) (h0 : 0 < m) (hm : m ≤ n) :
    ∃ k : Fin n, (k : Nat) < m ∧ (∀ j : Fin n, (j : Nat) < m → FloatOps.le (u k) (u j) = true) ∧
      (∀ j : Fin n, k < j → (j : Nat) < m → FloatOps.le (u j) (u k) = false) ∧
      ((List.finRange n).take m).foldl (fun (a : F × Int) i => if FloatOps.le (u i) a.1 then (u i, ((i : Nat) : Int)) else a) (FloatOrder.inf, 0) =
        (u k, ((k : Nat) : Int)) := by
  have hrefl : ∀ i, FloatOps.le (u i) (u i) = true := fun i => (FloatOrder.le_total _ _ (hu i) (hu i)).elim id id
  induction m with
  | zero => omega
  | succ m ih =>
    have hlt : m < n := by omega
    have htake : (List.finRange n).take (m + 1) = (List.finRange n).take m ++ [⟨m, hlt⟩] := by
      rw [List.take_succ]
      simp [hlt]
    rw [htake, List.foldl_append]
    by_cases h : m = 0
    · subst h
      refine ⟨⟨0, hlt⟩, by simp, ?_, ?_, ?_⟩
      · intro j hj
        obtain rfl : j = ⟨0, hlt⟩ := by ext; simp; omega
        exact hrefl _
      · intro j h1 h2
        have : (0 : Nat) < j := h1
        omega
      · simp [FloatOrder.le_inf _ (hu _)]
    · obtain ⟨k, hk, hl, hla, he⟩ := ih (by omega) (by omega)
      rw [he]
      simp only [List.foldl_cons, List.foldl_nil]
      cases hc : FloatOps.le (u ⟨m, hlt⟩) (u k) with
      | true =>
        refine ⟨⟨m, hlt⟩, by simp, ?_, ?_, by simp⟩
        · intro j hj
          by_cases hjm : (j : Nat) < m
          · exact FloatOrder.le_trans _ _ _ (hu _) (hu _) (hu _) hc (hl j hjm)
          · obtain rfl : j = ⟨m, hlt⟩ := by ext; simp; omega
            exact hrefl _
        · intro j h1 h2
          have : m < (j : Nat) := h1
          omega
      | false =>
        refine ⟨k, by omega, ?_, ?_, by simp⟩
        · intro j hj
          by_cases hjm : (j : Nat) < m
          · exact hl j hjm
          · obtain rfl : j = ⟨m, hlt⟩ := by ext; simp; omega
            rcases FloatOrder.le_total _ _ (hu k) (hu ⟨m, hlt⟩) with h1 | h1
            · exact h1
            · rw [hc] at h1
              cases h1
        · intro j h1 h2
          by_cases hjm : (j : Nat) < m
          · exact hla j h1 hjm
          · obtain rfl : j = ⟨m, hlt⟩ := by ext; simp; omega
            exact hc

theorem lesserEntry_tells {vs : List (PVal F)} (a b : F × Int) :
    tells lesserEntry (entryVal a :: entryVal b :: vs) = some (entryVal (if FloatOps.lt a.1 b.1 then a else b)) := by
  simp only [lesserEntry, entryOf, tells, tellsFields, List.getElem?_cons_zero, List.getElem?_cons_succ, Option.bind_some, entryVal, fieldOf]
  cases h : FloatOps.lt a.1 b.1 <;> simp [toScal, applyPy, applyOp, h]

theorem least_tells [FloatOrder F] (hlt : ∀ x y : F, FloatOrder.num x → FloatOrder.num y → FloatOps.lt x y = !FloatOps.le y x) {n : Nat} (hn : 0 < n)
    (u : Fin n → F) (hu : ∀ i, FloatOrder.num (u i)) :
    ∃ k : Fin n, IsLastArgmin u k ∧ tells (leastScript FloatOrder.inf) [vectorVal u] = some (entryVal (u k, ((k : Nat) : Int))) := by
  obtain ⟨k, -, h1, h2, h3⟩ := scan_last u hu n hn le_rfl
  refine ⟨k, ⟨fun j => h1 j j.isLt, fun j hj => h2 j hj j.isLt⟩, ?_⟩
  have hus : usesAll (entryOf (.item (.loc 1) (.loc 0)) (.loc 0) : Script F) 0 = some [[(⟨0, []⟩, 0)]] := rfl
  have hc : Phi.mapOpt (common [vectorVal u]) [[(⟨0, []⟩, 0)]] = some [n] := by
    simp [Phi.mapOpt, common, Place.val, extent_vector, hn]
  have ha : tells (.auto 0 (entryOf (.item (.loc 1) (.loc 0)) (.loc 0))) [vectorVal u] =
      some (.arr (List.ofFn fun i => entryVal (u i, ((i : Nat) : Int)))) := by
    rw [tells, hus, Option.bind_some, hc, Option.bind_some]
    simp only [table]
    rw [mapOpt_fin (h := fun i => entryVal (u i, ((i : Nat) : Int))), Option.bind_some, rows_fin]
    · intro i j
      simp [entryVal, PVal.sameShape, PVal.sameShapeFields]
    · intro i
      simp only [List.map_cons, List.map_nil, List.reverse_cons, List.reverse_nil, List.nil_append, List.cons_append, entryOf]
      rw [tells, tellsFields, read_vector (u := u) i.isLt rfl rfl]
      rfl
  have hz : tells (entryOf (.lit (.f FloatOrder.inf)) (.lit (.i 0))) [vectorVal u] = some (entryVal ((FloatOrder.inf : F), 0)) := rfl
  rw [leastScript, tells, ha, hz]
  simp only [Option.bind_some, toList]
  have loop : ∀ (l : List (Fin n)) (z : F × Int), FloatOrder.num z.1 →
      loopOpt (fun v y => tells lesserEntry (v :: y :: [vectorVal u])) (entryVal z) (l.map fun i => entryVal (u i, ((i : Nat) : Int))) =
        some (entryVal (l.foldl (fun (a : F × Int) i => if FloatOps.le (u i) a.1 then (u i, ((i : Nat) : Int)) else a) z)) := by
    intro l
    induction l with
    | nil => intro z _; rfl
    | cons i l ih =>
      intro z hz
      rw [List.map_cons, loopOpt, lesserEntry_tells, Option.bind_some, List.foldl_cons, hlt _ _ hz (hu i)]
      cases hle : FloatOps.le (u i) z.1 with
      | true => exact ih _ (hu i)
      | false => exact ih _ hz
  rw [List.ofFn_eq_map, loop _ _ FloatOrder.num_inf]
  rw [List.take_of_length_le (by simp)] at h3
  rw [h3]

/-! ### The values of what the library makes -/

section
variable [DecidableEq F]

/-- C44: the transposed matrix. -/
theorem C44_transpose (I : Ext F) {m n : Nat} (hm : 0 < m) (hn : 0 < n) (A : Matrix (Fin m) (Fin n) F) :
    Makes I transposeScript [matrixUTy] [matrixVal A] (matrixVal A.transpose) :=
  Ready.makes I (t := matrixUTy) ⟨rfl, rfl, rfl⟩ (by simp [isArray, matrixUTy]) (transpose_tells hm hn A)

/-- C44: the triangular mask, of any size. -/
theorem C44_mask (I : Ext F) (zero one : F) (m n : Nat) :
    Makes I (maskScript zero one m n) [] [] (matrixVal (Matrix.of fun (i : Fin m) (j : Fin n) => if (i : Nat) ≤ j then one else zero)) :=
  Ready.makes I (t := matrixUTy) ⟨rfl, rfl, rfl⟩ (by simp) (mask_tells zero one m n)

/-- C44: the factorial of any number. -/
theorem C44_factorial (I : Ext F) (n : Nat) : Makes I (factorialScript n) [] [] (.sc (.i n.factorial)) :=
  Ready.makes I (t := .sc .int) ⟨rfl, rfl, rfl⟩ (by simp) (factorial_tells n)

/-- C44: the least element and its position, of the example for `reduce` of the documentation. Of equal elements it is the last
one. `<` is the strict order of the numbers (`hlt`). -/
theorem C44_least [FloatOrder F] (I : Ext F) (hlt : ∀ x y : F, FloatOrder.num x → FloatOrder.num y → FloatOps.lt x y = !FloatOps.le y x) {n : Nat}
    (hn : 0 < n) (u : Fin n → F) (hu : ∀ i, FloatOrder.num (u i)) :
    ∃ k : Fin n, IsLastArgmin u k ∧ Makes I (leastScript FloatOrder.inf) [vectorTy] [vectorVal u] (entryVal (u k, ((k : Nat) : Int))) := by
  obtain ⟨k, h1, h2⟩ := least_tells hlt hn u hu
  exact ⟨k, h1, Ready.makes I (t := .record .dict (.cons "value" (.sc .float) (.cons "index" (.sc .int) .nil))) ⟨rfl, rfl, rfl⟩
    (by simp [isArray, vectorTy]) h2⟩

variable [Field F] [LinearOrder F] [ExactFloat F]

/-- C44: the product of matrices. -/
theorem C44_product (I : Ext F) {m p n : Nat} (hm : 0 < m) (hp : 0 < p) (hn : 0 < n) (A : Matrix (Fin m) (Fin p) F) (B : Matrix (Fin p) (Fin n) F) :
    Makes I (productScript 0) [matrixUTy, matrixUTy] [matrixVal A, matrixVal B] (matrixVal (A * B)) :=
  Ready.makes I (t := matrixUTy) ⟨rfl, rfl, rfl⟩ (by simp [isArray, matrixUTy]) (product_tells hm hp hn A B)

/-- C44: the product of a matrix and a vector. -/
theorem C44_apply (I : Ext F) {m p : Nat} (hm : 0 < m) (hp : 0 < p) (A : Matrix (Fin m) (Fin p) F) (u : Fin p → F) :
    Makes I (applyScript 0) [matrixUTy, vectorTy] [matrixVal A, vectorVal u] (vectorVal (A.mulVec u)) :=
  Ready.makes I (t := vectorTy) ⟨rfl, rfl, rfl⟩ (by simp [isArray, matrixUTy, vectorTy]) (apply_tells hm hp A u)

/-- C44: the outer product of vectors. -/
theorem C44_outer (I : Ext F) {m n : Nat} (hm : 0 < m) (hn : 0 < n) (u : Fin m → F) (v : Fin n → F) :
    Makes I outerScript [vectorTy, vectorTy] [vectorVal u, vectorVal v] (matrixVal (Matrix.vecMulVec u v)) :=
  Ready.makes I (t := matrixUTy) ⟨rfl, rfl, rfl⟩ (by simp [isArray, vectorTy]) (outer_tells hm hn u v)

/-- C44: the trace of a square matrix. -/
theorem C44_trace (I : Ext F) {n : Nat} (hn : 0 < n) (A : Matrix (Fin n) (Fin n) F) :
    Makes I (traceScript 0) [matrixUTy] [matrixVal A] (.sc (.f A.trace)) :=
  Ready.makes I (t := .sc .float) ⟨rfl, rfl, rfl⟩ (by simp [isArray, matrixUTy]) (trace_tells hn A)

end

/-! ### Examples -/

namespace C44Example
open Verif.Toy

/-- Two matrices. -/
def A : Matrix (Fin 2) (Fin 3) ℚ := !![1, 2, 3; 4, 5, 6]
def B : Matrix (Fin 3) (Fin 1) ℚ := !![1; 0; 2]

def row (l : List ℚ) : D ℚ := .vec (l.map fun x => .sc (.f x))

def theEnv : Env (D ℚ)
  | .var 0 => some (.vec [row [1, 2, 3], row [4, 5, 6]])
  | .var 1 => some (.vec [row [1], row [0], row [2]])
  | _ => none

theorem theEnv_regular : RegularEnv theEnv := by
  intro s v h
  unfold theEnv at h
  split at h
  · cases h; decide +kernel
  · cases h; decide +kernel
  · cases h

/-- There are arguments that hold them, so what the library makes from these holds the product. -/
example : ∃ args o c', argObjs 0 [matrixUTy.ty, matrixUTy.ty] = some args ∧ Phi.mapOpt (value (fun _ _ => none) theEnv) args = some [matrixVal A, matrixVal B] ∧
    make (productScript 0) args 2 = some (o, c') ∧ value (fun _ _ => none) theEnv o = some (matrixVal !![7; 16]) := by
  have hAB : A * B = !![7; 16] := by
    ext i j
    fin_cases i <;> fin_cases j <;> simp [A, B, Matrix.mul_apply, Fin.sum_univ_three] <;> norm_num
  have h1 : ∃ args, argObjs (F := ℚ) 0 [matrixUTy.ty, matrixUTy.ty] = some args ∧
      Phi.mapOpt (value (fun _ _ => none) theEnv) args = some [matrixVal A, matrixVal B] := ⟨_, rfl, rfl⟩
  obtain ⟨args, h1, h2⟩ := h1
  obtain ⟨o, c', h3, h4⟩ := C44_product (fun _ _ => none) (by decide) (by decide) (by decide) A B 0 args theEnv h1 theEnv_regular h2
  exact ⟨args, o, c', h1, h2, h3, by rw [h4, hAB]⟩

/-- The strict order of numbers with infinities. -/
theorem fl_lt (x y : Fl) (hx : FloatOrder.num x) (hy : FloatOrder.num y) : FloatOps.lt x y = !FloatOps.le y x := by
  have h : FloatOps.lt x y = (FloatOps.le x y && !FloatOps.le y x) := rfl
  rw [h]
  rcases FloatOrder.le_total x y hx hy with h | h
  · rw [h, Bool.true_and]
  · rw [h, Bool.not_true, Bool.and_false]

/-- The documentation's numbers 3, 6, -1, 5: the least is -1, at position 2. -/
example : tells (leastScript .inf) [vectorVal ![Fl.fin 3, .fin 6, .fin (-1), .fin 5]] = some (entryVal (.fin (-1), 2)) := rfl

example (I : Ext Fl) := C44_least I fl_lt (n := 4) (by decide) ![Fl.fin 3, .fin 6, .fin (-1), .fin 5]
  (by intro i; fin_cases i <;> simp [FloatOrder.num])

/-- The mask of the documentation. -/
example : tells (maskScript (0 : Int) 1 3 4) [] = some (.arr [.arr [.sc (.f 1), .sc (.f 1), .sc (.f 1), .sc (.f 1)],
    .arr [.sc (.f 0), .sc (.f 1), .sc (.f 1), .sc (.f 1)], .arr [.sc (.f 0), .sc (.f 0), .sc (.f 1), .sc (.f 1)]]) := rfl

/-- `5! = 120` -/
example (I : Ext ℚ) : Makes I (factorialScript 5) [] [] (.sc (.i 120)) := C44_factorial I 5

end C44Example

end Verif.Props
