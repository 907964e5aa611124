import Verif.Props.C44
import Mathlib.Algebra.BigOperators.Intervals
import Mathlib.Data.Nat.Fib.Basic
import Mathlib.Data.Nat.Prime.Defs

/-!
# C45: the programs of the tests

The tests of the library compare programs with what they should compute, for one size or for random arrays. Here these programs are
shown to compute it for all sizes: the prime numbers by trial division and by the sieve, the numbers of Fibonacci, the product of
a power of a matrix and a vector, the minimum-plus product, diagonals, sums along axes, and means of neighbours.
-/

set_option linter.unusedSectionVars false

namespace Verif.Props
open Verif.Phi Verif.Term Verif.Midend Verif.Codegen Verif.Frontend
variable {F : Type} [FloatOps F]

/-! ### Specification -/

/-- Integers, and truth values, as an array. -/
def integersVal {n : Nat} (u : Fin n → Int) : PVal F := .arr (List.ofFn fun i => .sc (.i (u i)))
def flagsVal {n : Nat} (u : Fin n → Bool) : PVal F := .arr (List.ofFn fun i => .sc (.b (u i)))

/-- Each element of the product is a least sum. -/
def IsMinPlus {m p n : Nat} (A : Matrix (Fin m) (Fin p) F) (B : Matrix (Fin p) (Fin n) F) (D : Matrix (Fin m) (Fin n) F) : Prop :=
  ∀ i j, ∃ k, D i j = FloatOps.add (A i k) (B k j) ∧ ∀ l, FloatOps.le (D i j) (FloatOps.add (A i l) (B l j)) = true

/-! ### The programs -/

/-- `acc & ~((i % d == 0) & (1 < d) & (d < i))`, where Python evaluates `1 < d` as `d > 1` -/
def trialStep : Script F :=
  .bin .and (.loc 1) (.un .logicalNot (.bin .and (.bin .and (.bin .eq (.bin .mod (.loc 2) (.loc 0)) (.lit (.i 0)))
    (.bin .gt (.loc 0) (.lit (.i 1)))) (.bin .lt (.loc 0) (.loc 2))))

/-- `lambda n: array(lambda i: fold(i > 1, lambda d, acc: …, count=n), size=n)` (`tests/test_main.py:211-221`) -/
def trialScript : Script F := .array (.loc 0) (.fold (.loc 1) (.bin .gt (.loc 0) (.lit (.i 1))) trialStep)

/-- `array(lambda i: (siv[i] & ~((d > 1) & (i >= d * d) & (i % d == 0))), size=n)` -/
def sieveStep : Script F :=
  .array (.loc 2) (.bin .and (.item (.loc 2) (.loc 0)) (.un .logicalNot (.bin .and (.bin .and (.bin .gt (.loc 1) (.lit (.i 1)))
    (.bin .ge (.loc 0) (.bin .mul (.loc 1) (.loc 1)))) (.bin .eq (.bin .mod (.loc 0) (.loc 1)) (.lit (.i 0))))))

/-- `lambda n: fold(array(lambda i: i > 1, size=n), lambda d, siv: …, count=n)` (`tests/test_main.py:233-240`) -/
def sieveScript : Script F := .fold (.loc 0) (.array (.loc 0) (.bin .gt (.loc 0) (.lit (.i 1)))) sieveStep

/-- `array(lambda j: where(i == j, where(j == 0, 0, where(j == 1, 1, acc[i - 1] + acc[i - 2])), acc[j]))` -/
def fibStep : Script F :=
  .auto 0 (.choose (.bin .eq (.loc 1) (.loc 0))
    (.choose (.bin .eq (.loc 0) (.lit (.i 0))) (.lit (.i 0)) (.choose (.bin .eq (.loc 0) (.lit (.i 1))) (.lit (.i 1))
      (.bin .add (.item (.loc 2) (.bin .sub (.loc 1) (.lit (.i 1)))) (.item (.loc 2) (.bin .sub (.loc 1) (.lit (.i 2)))))))
    (.item (.loc 2) (.loc 0)))

/-- `lambda n: fold(array(lambda i: wrap(0), size=n), lambda i, acc: …, count=n)` (`tests/test_main.py:175-186`) -/
def fibScript : Script F := .fold (.loc 0) (.array (.loc 0) (.lit (.i 0))) fibStep

/-- `a = array(lambda i: i, size=n)`, `fold(0, lambda i, acc: acc + a[i])` (`README.md:116-117`, with `n` for 5) -/
def gaussScript : Script F :=
  .assign (.array (.loc 0) (.loc 0)) (.autoFold (.lit (.i 0)) (.bin .add (.loc 1) (.item (.loc 2) (.loc 0))))

/-- `(matmat(mv[0], m), matvec(m, mv[1]))`, where
`matmat = lambda a, b: array(lambda i, j: fold_sum(lambda k: a[i, k] * b[k, j]))` and
`matvec = lambda a, b: array(lambda i: fold_sum(lambda k: a[i, k] * b[k]))` -/
def powerStep (zero : F) : Script F :=
  pairOf
    (.auto 1 (foldSum zero none (.bin .mul (.item (.item (.part (.loc 5) 0) (.loc 3)) (.loc 0)) (.item (.item (.loc 8) (.loc 0)) (.loc 2)))))
    (.auto 0 (foldSum zero none (.bin .mul (.item (.item (.loc 7) (.loc 2)) (.loc 0)) (.item (.part (.loc 4) 1) (.loc 0)))))

/-- The program (`tests/test_main.py:296-308`)
```
def pow_mult(m, n, v):
    k = m.size(0)
    id_k = array(lambda i, j: where(i == j, 1.0, 0.0), size=(k, k))
    mn, vn = fold((id_k, v), lambda t, mv: (matmat(mv[0], m), matvec(m, mv[1])), count=n)
    return matvec(mn, vn)
``` -/
def powerVectorScript (zero one : F) : Script F :=
  .assign (.size (.loc 0) 0)
  (.assign (.array (.loc 0) (.array (.loc 1) (.choose (.bin .eq (.loc 1) (.loc 0)) (.lit (.f one)) (.lit (.f zero)))))
  (.assign (.fold (.loc 3) (pairOf (.loc 0) (.loc 4)) (powerStep zero))
    (.auto 0 (foldSum zero none (.bin .mul (.item (.item (.part (.loc 3) 0) (.loc 2)) (.loc 0)) (.item (.part (.loc 3) 1) (.loc 0)))))))

/-- `lambda a: array(lambda i: a[i, i])` (`tests/test_main.py:350`) -/
def diagonalScript : Script F := .auto 0 (.item (.item (.loc 1) (.loc 0)) (.loc 0))

/-- `array(lambda i: fold_sum(lambda j: a[i, j]))` (`tests/test_main.py:374-390`). Simplified: the test wraps the matrix as a constant, here it is an argument. -/
def rowSumsScript (zero : F) : Script F := .auto 0 (foldSum zero none (.item (.item (.loc 3) (.loc 2)) (.loc 0)))

/-- `array(lambda j: fold_sum(lambda i: a[i, j]))` -/
def columnSumsScript (zero : F) : Script F := .auto 0 (foldSum zero none (.item (.item (.loc 3) (.loc 0)) (.loc 2)))

/-- `fold_sum(lambda i: fold_sum(lambda j: a[i, j]))` -/
def totalScript (zero : F) : Script F := foldSum zero none (foldSum zero none (.item (.item (.loc 4) (.loc 2)) (.loc 0)))

/-- `f = lambda x: array(lambda i, j: x[i, j] + x[j, i])`, `lambda a: f(f(f(a)))` (`tests/test_main.py:265-268`) -/
def symmetricStep : Script F := .auto 1 (.bin .add (.item (.item (.loc 2) (.loc 1)) (.loc 0)) (.item (.item (.loc 2) (.loc 0)) (.loc 1)))
def symmetricScript : Script F := .assign (.assign symmetricStep symmetricStep) symmetricStep


/-- `n = a.size(0)`, `array(lambda i: where((i > 0) & (i + 1 < n), (a[i - 1] + a[i + 1]) / 2.0, a[i]))` (`tests/test_main.py:332-340`) -/
def smoothScript (two : F) : Script F :=
  .assign (.size (.loc 0) 0) (.auto 0 (.choose (.bin .and (.bin .gt (.loc 0) (.lit (.i 0))) (.bin .lt (.bin .add (.loc 0) (.lit (.i 1))) (.loc 1)))
    (.bin .truediv (.bin .add (.item (.loc 2) (.bin .sub (.loc 0) (.lit (.i 1)))) (.item (.loc 2) (.bin .add (.loc 0) (.lit (.i 1))))) (.lit (.f two)))
    (.item (.loc 2) (.loc 0))))

/-- `array(lambda i, j: fold(float("+inf"), lambda k, acc: minimum(acc, a[i, k] + b[k, j])))`
(`tests/test_main.py:565-573`). Simplified: the test wraps the matrices as constants, here they are arguments; `foldMin` is this fold (`std.py:34-35, 42, 49-50`). -/
def minPlusScript (inf : F) : Script F :=
  .auto 1 (foldMin inf none (.bin .add (.item (.item (.loc 4) (.loc 3)) (.loc 0)) (.item (.item (.loc 5) (.loc 0)) (.loc 2))))

/-- `lambda a, b: fold_max(lambda i: a[i] * b[i]) - fold_min(lambda i: a[i] * b[i])` (`tests/test_main.py:135-138`) -/
def spanScript (inf ninf : F) : Script F :=
  .bin .sub (foldMax ninf none (.bin .mul (.item (.loc 2) (.loc 0)) (.item (.loc 3) (.loc 0))))
    (foldMin inf none (.bin .mul (.item (.loc 2) (.loc 0)) (.item (.loc 3) (.loc 0))))

/-! ### Arrays -/

omit [FloatOps F] in
theorem element_clamp {n : Nat} (hn : 0 < n) (h : Fin n → PVal F) (z : Int) :
    elementAt (List.ofFn h) z = some (h ⟨min z.toNat (n - 1), by omega⟩) := by
  rw [elementAt, show (Max.max 0 (Min.min z (((List.ofFn h).length : Int) - 1))).toNat = min z.toNat (n - 1) by simp; omega]
  simp [hn]

omit [FloatOps F] in
theorem extent_integers {n : Nat} (u : Fin n → Int) : extent 0 (integersVal u : PVal F) = some n := by simp [integersVal, extent]

theorem loop_append {α β : Type} {step : β → α → Option β} : ∀ (l m : List α) (z : β),
    loopOpt step z (l ++ m) = (loopOpt step z l).bind fun v => loopOpt step v m
  | [], _, _ => rfl
  | a :: l, m, z => by
    rw [List.cons_append, loopOpt, loopOpt]
    cases step z a with
    | none => rfl
    | some v => exact loop_append l m v

/-- A loop whose rounds go from one of the values `e` to the next. -/
theorem loop_states {β : Type} {step : β → Nat → Option β} {e : Nat → β} {n : Nat} (h : ∀ k < n, step (e k) k = some (e (k + 1))) :
    loopOpt step (e 0) (List.range n) = some (e n) := by
  induction n with
  | zero => rfl
  | succ n ih =>
    rw [List.range_succ, loop_append, ih fun k hk => h k (by omega), Option.bind_some, loopOpt, h n (by omega)]
    rfl

/-! ### Prime numbers -/

theorem mod_eq_zero (i d : Nat) (hd : 1 < d) : (intMod (i : Int) (d : Int) = 0) ↔ d ∣ i := by
  rw [intMod, if_neg (by omega), Int.fmod_eq_emod_of_nonneg _ (by omega)]
  omega

/-- What is known after the divisors less than `k`. -/
def trialState (i k : Nat) : Bool := decide (1 < i ∧ ∀ d < k, ¬ (d ∣ i ∧ 1 < d ∧ d < i))

theorem trialState_succ (i k : Nat) : trialState i (k + 1) =
    (trialState i k && !(decide (intMod (i : Int) (k : Int) = 0) && decide ((1 : Int) < k) && decide ((k : Int) < i))) := by
  rw [Bool.eq_iff_iff]
  simp only [trialState, decide_eq_true_eq, Bool.and_eq_true, Bool.not_eq_true', Bool.and_eq_false_iff, decide_eq_false_iff_not, Nat.forall_lt_succ_right]
  by_cases h : 1 < k
  · rw [mod_eq_zero i k h]
    have h2 : (1 : Int) < k := by omega
    have h3 : ((k : Int) < i) ↔ k < i := by omega
    simp only [h, h2, h3]
    tauto
  · have h2 : ¬ (1 : Int) < k := by omega
    simp only [h, h2]
    tauto

theorem trialState_prime {i n : Nat} (h : i < n) : trialState i n = decide i.Prime := by
  rw [trialState, decide_eq_decide, Nat.prime_def_lt']
  constructor
  · rintro ⟨h1, h2⟩
    exact ⟨h1, fun m a b c => h2 m (by omega) ⟨c, by omega, b⟩⟩
  · rintro ⟨h1, h2⟩
    exact ⟨h1, fun d _ c => h2 d (by omega) c.2.2 c.1⟩

theorem trial_tells (n : Int) : tells (trialScript : Script F) [.sc (.i n)] = some (flagsVal fun i : Fin n.toNat => decide (i : Nat).Prime) := by
  rw [trialScript, tells, tells]
  simp only [List.getElem?_cons_zero, Option.bind_some, toInt]
  rw [mapOpt_fin (h := fun i => .sc (.b (decide (i : Nat).Prime))), Option.bind_some, rows_fin fun _ _ => rfl]
  · rfl
  · intro i
    rw [tells]
    simp only [tells, List.getElem?_cons_zero, List.getElem?_cons_succ, Option.bind_some, toInt, toScal, applyPy, applyOp, Option.map_some]
    have h0 : (PVal.sc (.b (decide ((1 : Int) < ((i : Nat) : Int)))) : PVal F) = .sc (.b (trialState i 0)) := by
      congr 2
      simp [trialState]
    rw [h0, loop_states (e := fun k => (PVal.sc (.b (trialState i k)) : PVal F))]
    · rw [trialState_prime i.isLt]
    · intro k _
      rw [trialState_succ]
      simp [trialStep, tells, toScal, applyPy, applyOp]

/-- What is known after the divisors less than `k`. -/
def sieveState (i k : Nat) : Bool := decide (1 < i ∧ ∀ d < k, ¬ (1 < d ∧ d * d ≤ i ∧ d ∣ i))

theorem sieveState_succ (i k : Nat) : sieveState i (k + 1) =
    (sieveState i k && !(decide ((1 : Int) < k) && decide ((k : Int) * k ≤ i) && decide (intMod (i : Int) (k : Int) = 0))) := by
  rw [Bool.eq_iff_iff]
  simp only [sieveState, decide_eq_true_eq, Bool.and_eq_true, Bool.not_eq_true', Bool.and_eq_false_iff, decide_eq_false_iff_not, Nat.forall_lt_succ_right]
  by_cases h : 1 < k
  · rw [mod_eq_zero i k h]
    have h2 : (1 : Int) < k := by omega
    have h3 : ((k : Int) * k ≤ i) ↔ k * k ≤ i := by exact_mod_cast Iff.rfl
    simp only [h, h2, h3]
    tauto
  · have h2 : ¬ (1 : Int) < k := by omega
    simp only [h, h2]
    tauto

theorem sieveState_prime {i n : Nat} (h : i < n) : sieveState i n = decide i.Prime := by
  rw [sieveState, decide_eq_decide, Nat.prime_def_le_sqrt]
  constructor
  · rintro ⟨h1, h2⟩
    refine ⟨h1, fun m a b c => h2 m ?_ ⟨by omega, Nat.le_sqrt.1 b, c⟩⟩
    have := Nat.sqrt_le_self i
    omega
  · rintro ⟨h1, h2⟩
    exact ⟨h1, fun d _ c => h2 d (by omega) (Nat.le_sqrt.2 c.2.1) c.2.2⟩

theorem sieve_tells (n : Int) : tells (sieveScript : Script F) [.sc (.i n)] = some (flagsVal fun i : Fin n.toNat => decide (i : Nat).Prime) := by
  have hz : tells (.array (.loc 0) (.bin .gt (.loc 0) (.lit (.i 1))) : Script F) [.sc (.i n)] =
      some (flagsVal fun i : Fin n.toNat => sieveState i 0) := by
    rw [tells, tells]
    simp only [List.getElem?_cons_zero, Option.bind_some, toInt]
    rw [mapOpt_fin (h := fun i : Fin n.toNat => .sc (.b (sieveState i 0))), Option.bind_some, rows_fin fun _ _ => rfl]
    · rfl
    · intro i
      simp [tells, toScal, applyPy, applyOp, sieveState]
  rw [sieveScript, tells, hz, tells]
  simp only [List.getElem?_cons_zero, Option.bind_some, toInt]
  rw [loop_states (e := fun k => flagsVal fun i : Fin n.toNat => sieveState i k)]
  · simp only [sieveState_prime (Fin.isLt _)]
  · intro k hk
    rw [sieveStep, tells, tells]
    simp only [List.getElem?_cons_zero, List.getElem?_cons_succ, Option.bind_some, toInt]
    rw [mapOpt_fin (h := fun i : Fin n.toNat => .sc (.b (sieveState i (k + 1)))), Option.bind_some, rows_fin fun _ _ => rfl]
    · rfl
    · intro i
      have hi : tells (.item (.loc 2) (.loc 0) : Script F) [.sc (.i (i : Nat)), .sc (.i k), flagsVal fun i : Fin n.toNat => sieveState i k, .sc (.i n)] =
          some (.sc (.b (sieveState i k))) := by
        simpa [tells, toList, toInt, flagsVal] using element_fin (fun i : Fin n.toNat => (PVal.sc (.b (sieveState i k)) : PVal F)) i
      rw [sieveState_succ, tells, hi]
      simp [tells, toScal, applyPy, applyOp]

/-! ### The numbers of Fibonacci -/

/-- The numbers up to the `k`-th round. -/
def fibUntil (n k : Nat) : Fin n → Int := fun j => if (j : Nat) < k then Nat.fib j else 0

theorem fib_round {n k : Nat} (hk : k < n) (vs : List (PVal F)) :
    tells fibStep (.sc (.i k) :: integersVal (fibUntil n k) :: vs) = some (integersVal (fibUntil n (k + 1))) := by
  have hu : usesAll (.choose (.bin .eq (.loc 1) (.loc 0))
      (.choose (.bin .eq (.loc 0) (.lit (.i 0))) (.lit (.i 0)) (.choose (.bin .eq (.loc 0) (.lit (.i 1))) (.lit (.i 1))
        (.bin .add (.item (.loc 2) (.bin .sub (.loc 1) (.lit (.i 1)))) (.item (.loc 2) (.bin .sub (.loc 1) (.lit (.i 2)))))))
      (.item (.loc 2) (.loc 0)) : Script F) 0 = some [[(⟨1, []⟩, 0)]] := rfl
  have hn : 0 < n := by omega
  have hc : Phi.mapOpt (common ((.sc (.i k) : PVal F) :: integersVal (fibUntil n k) :: vs)) [[(⟨1, []⟩, 0)]] = some [n] := by
    simp [Phi.mapOpt, common, Place.val, extent_integers, hn]
  rw [fibStep, tells, hu, Option.bind_some, hc, Option.bind_some]
  simp only [table]
  rw [mapOpt_fin (h := fun j => .sc (.i (fibUntil n (k + 1) j))), Option.bind_some, rows_fin fun _ _ => rfl]
  · rfl
  · intro j
    simp only [List.map_cons, List.map_nil, List.reverse_cons, List.reverse_nil, List.nil_append, List.cons_append, tells,
      List.getElem?_cons_succ, List.getElem?_cons_zero, Option.bind_some, toScal, toInt, toList, applyPy, applyOp, Option.map_some, integersVal,
      element_clamp hn]
    have e1 : min ((k : Int) - 1).toNat (n - 1) = k - 1 := by omega
    have e2 : min ((k : Int) - 2).toNat (n - 1) = k - 2 := by omega
    have e3 : min ((j : Nat) : Int).toNat (n - 1) = j := by omega
    simp only [e1, e2, e3]
    by_cases hkj : k = j
    · obtain ⟨j, hj⟩ := j
      obtain rfl : k = j := hkj
      obtain h0 | h1 | ⟨m, rfl⟩ : k = 0 ∨ k = 1 ∨ ∃ m, k = m + 2 := by
        rcases k with _ | _ | m
        · simp
        · simp
        · exact .inr (.inr ⟨m, rfl⟩)
      · subst h0
        simp [fibUntil]
      · subst h1
        simp [fibUntil]
      · simp [fibUntil, Nat.fib_add_two, show (m : Int) + 2 ≠ 0 by omega, show (m : Int) + 2 ≠ 1 by omega, add_comm]
    · have h1 : ((j : Nat) < k + 1) ↔ ((j : Nat) < k) := by omega
      have h2 : ¬ ((k : Int) = ((j : Nat) : Int)) := by omega
      simp only [fibUntil, h1]
      simp [hkj]

theorem fib_tells (n : Int) : tells (fibScript : Script F) [.sc (.i n)] = some (integersVal fun j : Fin n.toNat => (Nat.fib j : Int)) := by
  have hz : tells (.array (.loc 0) (.lit (.i 0)) : Script F) [.sc (.i n)] = some (integersVal (fibUntil n.toNat 0)) := by
    rw [tells, tells]
    simp only [List.getElem?_cons_zero, Option.bind_some, toInt]
    rw [mapOpt_fin (h := fun _ : Fin n.toNat => .sc (.i 0)) fun _ => rfl, Option.bind_some, rows_fin fun _ _ => rfl]
    simp [integersVal, fibUntil]
  rw [fibScript, tells, hz, tells]
  simp only [List.getElem?_cons_zero, Option.bind_some, toInt]
  rw [loop_states (e := fun k => integersVal (fibUntil n.toNat k)) fun k hk => fib_round hk _]
  have h : fibUntil n.toNat n.toNat = fun j : Fin n.toNat => (Nat.fib j : Int) := by
    funext j
    rw [fibUntil, if_pos j.isLt]
  rw [h]

/-! ### Sums -/

theorem gauss_tells {n : Nat} (hn : 0 < n) : tells (gaussScript : Script F) [.sc (.i n)] = some (.sc (.i (∑ i ∈ Finset.range n, (i : Int)))) := by
  have hz : tells (.array (.loc 0) (.loc 0) : Script F) [.sc (.i n)] = some (integersVal fun i : Fin n => ((i : Nat) : Int)) := by
    rw [tells, tells]
    simp only [List.getElem?_cons_zero, Option.bind_some, toInt, Int.toNat_natCast]
    rw [mapOpt_fin (h := fun i : Fin n => .sc (.i (i : Nat))) fun _ => rfl, Option.bind_some, rows_fin fun _ _ => rfl]
    rfl
  have hu : usesIn (.bin .add (.loc 1) (.item (.loc 2) (.loc 0)) : Script F) 2 0 = some [(⟨0, []⟩, 0)] := rfl
  rw [gaussScript, tells, hz, Option.bind_some, tells, hu, Option.bind_some]
  have hc : common [(integersVal fun i : Fin n => ((i : Nat) : Int) : PVal F), .sc (.i n)] [(⟨0, []⟩, 0)] = some n := by
    simp [common, Phi.mapOpt, Place.val, extent_integers, hn]
  rw [hc, Option.bind_some, tells, Option.bind_some]
  refine (loop_foldl (e := fun k : Int => (.sc (.i k) : PVal F)) (g := fun a (i : Nat) => a + (i : Int)) (List.range n) 0 ?_).trans ?_
  · intro i hi a
    have hi : i < n := by simpa using hi
    simp [tells, toScal, toInt, toList, applyPy, applyOp, integersVal, element_clamp hn]
    omega
  · congr 3
    clear hz hu hc hn
    induction n with
    | zero => rfl
    | succ n ih => rw [List.range_succ, List.foldl_append, ih, Finset.sum_range_succ]; rfl

/-! ### Matrices -/

section
variable [Field F] [LinearOrder F] [ExactFloat F]

/-- The pair of a matrix and a vector. -/
def pairVal {n : Nat} (C : Matrix (Fin n) (Fin n) F) (w : Fin n → F) : PVal F := .record .positional [("0", matrixVal C), ("1", vectorVal w)]

theorem matmat_tells {n : Nat} (hn : 0 < n) (C A : Matrix (Fin n) (Fin n) F) (w : Fin n → F) (t a b : PVal F) (vs : List (PVal F)) :
    tells (.auto 1 (foldSum (0 : F) none (.bin .mul (.item (.item (.part (.loc 5) 0) (.loc 3)) (.loc 0)) (.item (.item (.loc 8) (.loc 0)) (.loc 2)))))
      (t :: pairVal C w :: a :: b :: matrixVal A :: vs) = some (matrixVal (C * A)) := by
  have hu : usesAll (foldSum (0 : F) none (.bin .mul (.item (.item (.part (.loc 5) 0) (.loc 3)) (.loc 0)) (.item (.item (.loc 8) (.loc 0)) (.loc 2)))) 1 =
      some [[(⟨1, [.inl 0]⟩, 0)], [(⟨4, []⟩, 1)]] := rfl
  have hp : Place.val ⟨1, [.inl 0]⟩ (t :: pairVal C w :: a :: b :: matrixVal A :: vs) = some (matrixVal C) := rfl
  have hc : Phi.mapOpt (common (t :: pairVal C w :: a :: b :: matrixVal A :: vs)) [[(⟨1, [.inl 0]⟩, 0)], [(⟨4, []⟩, 1)]] = some [n, n] := by
    simp only [Phi.mapOpt, common, hp]
    simp [Place.val, extent_matrix, extent_columns hn, hn]
  rw [tells, hu, Option.bind_some, hc, Option.bind_some]
  refine table_matrix _ fun i j => ?_
  simp only [List.map_cons, List.map_nil, List.reverse_cons, List.reverse_nil, List.nil_append, List.cons_append]
  rw [C43_fold_sum none _ _ n (fun l => if h : l < n then C i ⟨l, h⟩ * A ⟨l, h⟩ j else 0)]
  · rw [Finset.sum_range, Matrix.mul_apply]
    simp
  · have : uses (.bin .mul (.item (.item (.part (.loc 5) 0) (.loc 3)) (.loc 0)) (.item (.item (.loc 8) (.loc 0)) (.loc 2)) : Script F) 2 0 =
        some [(⟨3, [.inl 0]⟩, 1), (⟨6, []⟩, 0)] := rfl
    have hp : ∀ x y, Place.val ⟨3, [.inl 0]⟩ (x :: y :: t :: pairVal C w :: a :: b :: matrixVal A :: vs) = some (matrixVal C) := fun _ _ => rfl
    simp only [Rounds, this, Option.bind_some, common, Phi.mapOpt, hp]
    simp [Place.val, extent_matrix, extent_columns hn, hn]
  · intro l hl z
    simp only [dif_pos hl]
    exact mul_tells (read_vector hl (read_matrix i.isLt rfl rfl) rfl) (read_vector j.isLt (read_matrix hl rfl rfl) rfl)

theorem matvec_tells {n : Nat} (hn : 0 < n) (C A : Matrix (Fin n) (Fin n) F) (w : Fin n → F) (t a b : PVal F) (vs : List (PVal F)) :
    tells (.auto 0 (foldSum (0 : F) none (.bin .mul (.item (.item (.loc 7) (.loc 2)) (.loc 0)) (.item (.part (.loc 4) 1) (.loc 0)))))
      (t :: pairVal C w :: a :: b :: matrixVal A :: vs) = some (vectorVal (A.mulVec w)) := by
  have hu : usesAll (foldSum (0 : F) none (.bin .mul (.item (.item (.loc 7) (.loc 2)) (.loc 0)) (.item (.part (.loc 4) 1) (.loc 0)))) 0 =
      some [[(⟨4, []⟩, 0)]] := rfl
  have hc : Phi.mapOpt (common (t :: pairVal C w :: a :: b :: matrixVal A :: vs)) [[(⟨4, []⟩, 0)]] = some [n] := by
    simp [Phi.mapOpt, common, Place.val, extent_matrix, hn]
  rw [tells, hu, Option.bind_some, hc, Option.bind_some]
  refine table_vector _ fun i => ?_
  simp only [List.map_cons, List.map_nil, List.reverse_cons, List.reverse_nil, List.nil_append, List.cons_append]
  rw [C43_fold_sum none _ _ n (fun l => if h : l < n then A i ⟨l, h⟩ * w ⟨l, h⟩ else 0)]
  · rw [Finset.sum_range, Matrix.mulVec, dotProduct]
    simp
  · have : uses (.bin .mul (.item (.item (.loc 7) (.loc 2)) (.loc 0)) (.item (.part (.loc 4) 1) (.loc 0)) : Script F) 2 0 =
        some [(⟨5, []⟩, 1), (⟨2, [.inl 1]⟩, 0)] := rfl
    have hp : ∀ x, Place.val ⟨2, [.inl 1]⟩ (x :: t :: pairVal C w :: a :: b :: matrixVal A :: vs) = some (vectorVal w) := fun _ => rfl
    simp only [Rounds, this, Option.bind_some, common, Phi.mapOpt, hp]
    simp [Place.val, extent_vector, extent_columns hn, hn]
  · intro l hl z
    simp only [dif_pos hl]
    exact mul_tells (read_vector hl (read_matrix i.isLt rfl rfl) rfl) (read_vector hl rfl rfl)

theorem last_tells {n : Nat} (hn : 0 < n) (C : Matrix (Fin n) (Fin n) F) (w : Fin n → F) (vs : List (PVal F)) :
    tells (.auto 0 (foldSum (0 : F) none (.bin .mul (.item (.item (.part (.loc 3) 0) (.loc 2)) (.loc 0)) (.item (.part (.loc 3) 1) (.loc 0)))))
      (pairVal C w :: vs) = some (vectorVal (C.mulVec w)) := by
  have hu : usesAll (foldSum (0 : F) none (.bin .mul (.item (.item (.part (.loc 3) 0) (.loc 2)) (.loc 0)) (.item (.part (.loc 3) 1) (.loc 0)))) 0 =
      some [[(⟨0, [.inl 0]⟩, 0)]] := rfl
  have hp : Place.val ⟨0, [.inl 0]⟩ (pairVal C w :: vs) = some (matrixVal C) := rfl
  have hc : Phi.mapOpt (common (pairVal C w :: vs)) [[(⟨0, [.inl 0]⟩, 0)]] = some [n] := by
    simp only [Phi.mapOpt, common, hp]
    simp [extent_matrix, hn]
  rw [tells, hu, Option.bind_some, hc, Option.bind_some]
  refine table_vector _ fun i => ?_
  simp only [List.map_cons, List.map_nil, List.reverse_cons, List.reverse_nil, List.nil_append, List.cons_append]
  rw [C43_fold_sum none _ _ n (fun l => if h : l < n then C i ⟨l, h⟩ * w ⟨l, h⟩ else 0)]
  · rw [Finset.sum_range, Matrix.mulVec, dotProduct]
    simp
  · have : uses (.bin .mul (.item (.item (.part (.loc 3) 0) (.loc 2)) (.loc 0)) (.item (.part (.loc 3) 1) (.loc 0)) : Script F) 2 0 =
        some [(⟨1, [.inl 0]⟩, 1), (⟨1, [.inl 1]⟩, 0)] := rfl
    have hp : ∀ x, Place.val ⟨1, [.inl 0]⟩ (x :: pairVal C w :: vs) = some (matrixVal C) := fun _ => rfl
    have hq : ∀ x, Place.val ⟨1, [.inl 1]⟩ (x :: pairVal C w :: vs) = some (vectorVal w) := fun _ => rfl
    simp only [Rounds, this, Option.bind_some, common, Phi.mapOpt, hp, hq]
    simp [extent_vector, extent_columns hn, hn]
  · intro l hl z
    simp only [dif_pos hl]
    exact mul_tells (read_vector hl (read_matrix i.isLt rfl rfl) rfl) (read_vector hl rfl rfl)

theorem powerVector_tells {n : Nat} (hn : 0 < n) (A : Matrix (Fin n) (Fin n) F) (k : Int) (v : Fin n → F) :
    tells (powerVectorScript 0 1) [matrixVal A, .sc (.i k), vectorVal v] = some (vectorVal ((A ^ (2 * k.toNat)).mulVec v)) := by
  have hi : tells (.array (.loc 0) (.array (.loc 1) (.choose (.bin .eq (.loc 1) (.loc 0)) (.lit (.f 1)) (.lit (.f 0)))))
      [.sc (.i n), matrixVal A, .sc (.i k), vectorVal v] = some (matrixVal (1 : Matrix (Fin n) (Fin n) F)) := by
    have inner : ∀ i : Fin n, tells (.array (.loc 1) (.choose (.bin .eq (.loc 1) (.loc 0)) (.lit (.f 1)) (.lit (.f 0))))
        [.sc (.i i), .sc (.i n), matrixVal A, .sc (.i k), vectorVal v] = some (vectorVal fun j : Fin n => (1 : Matrix (Fin n) (Fin n) F) i j) := by
      intro i
      rw [tells, tells]
      simp only [List.getElem?_cons_zero, List.getElem?_cons_succ, Option.bind_some, toInt, Int.toNat_natCast]
      rw [mapOpt_fin (h := fun j => .sc (.f ((1 : Matrix (Fin n) (Fin n) F) i j))), Option.bind_some, rows_fin fun _ _ => rfl]
      · rfl
      · intro j
        simp only [tells, List.getElem?_cons_succ, List.getElem?_cons_zero, Option.bind_some, toScal, applyPy, applyOp, Option.map_some]
        by_cases h : i = j
        · subst h
          simp
        · have : (i : Nat) ≠ j := fun e => h (Fin.ext e)
          simp [Matrix.one_apply_ne h, this]
    rw [tells, tells]
    simp only [List.getElem?_cons_zero, Option.bind_some, toInt, Int.toNat_natCast]
    rw [mapOpt_fin inner, Option.bind_some]
    exact rows_fin fun i i' => vector_sameShape (fun j => _) fun j => _
  have hs : tells (.size (.loc 0) 0) [matrixVal A, .sc (.i k), vectorVal v] = some (.sc (.i n)) := by
    simp [tells, extent_matrix]
  rw [powerVectorScript, tells, hs, Option.bind_some, tells, hi, Option.bind_some, tells]
  have hf : tells (.fold (.loc 3) (pairOf (.loc 0) (.loc 4)) (powerStep 0)) [matrixVal (1 : Matrix (Fin n) (Fin n) F), .sc (.i n), matrixVal A, .sc (.i k), vectorVal v] =
      some (pairVal (A ^ k.toNat) ((A ^ k.toNat).mulVec v)) := by
    have hz : tells (pairOf (.loc 0) (.loc 4)) [matrixVal (1 : Matrix (Fin n) (Fin n) F), .sc (.i n), matrixVal A, .sc (.i k), vectorVal v] =
        some (pairVal (A ^ 0) ((A ^ 0).mulVec v)) := by
      rw [pow_zero, Matrix.one_mulVec]
      rfl
    rw [tells, hz, tells]
    simp only [List.getElem?_cons_zero, List.getElem?_cons_succ, Option.bind_some, toInt]
    rw [loop_states (e := fun l => pairVal (A ^ l) ((A ^ l).mulVec v))]
    intro l _
    rw [powerStep, pairOf, tells, tellsFields, matmat_tells hn, Option.bind_some, tellsFields, matvec_tells hn, pow_succ, Matrix.mulVec_mulVec, ← pow_succ', ← pow_succ]
    rfl
  rw [hf, Option.bind_some, last_tells hn, Matrix.mulVec_mulVec, ← pow_add, two_mul]


theorem diagonal_tells {n : Nat} (hn : 0 < n) (A : Matrix (Fin n) (Fin n) F) : tells diagonalScript [matrixVal A] = some (vectorVal A.diag) := by
  have hu : usesAll (.item (.item (.loc 1) (.loc 0)) (.loc 0) : Script F) 0 = some [[(⟨0, []⟩, 1), (⟨0, []⟩, 0)]] := rfl
  have hc : Phi.mapOpt (common [matrixVal A]) [[(⟨0, []⟩, 1), (⟨0, []⟩, 0)]] = some [n] := by
    simp [Phi.mapOpt, common, Place.val, extent_matrix, extent_columns hn, hn]
  rw [diagonalScript, tells, hu, Option.bind_some, hc, Option.bind_some]
  refine table_vector _ fun i => ?_
  exact read_vector (u := fun j => A i j) i.isLt (read_matrix (A := A) i.isLt rfl rfl) rfl

theorem rowSums_tells {m n : Nat} (hm : 0 < m) (hn : 0 < n) (A : Matrix (Fin m) (Fin n) F) :
    tells (rowSumsScript 0) [matrixVal A] = some (vectorVal fun i => ∑ j, A i j) := by
  have hu : usesAll (foldSum (0 : F) none (.item (.item (.loc 3) (.loc 2)) (.loc 0))) 0 = some [[(⟨0, []⟩, 0)]] := rfl
  have hc : Phi.mapOpt (common [matrixVal A]) [[(⟨0, []⟩, 0)]] = some [m] := by
    simp [Phi.mapOpt, common, Place.val, extent_matrix, hm]
  rw [rowSumsScript, tells, hu, Option.bind_some, hc, Option.bind_some]
  refine table_vector _ fun i => ?_
  simp only [List.map_cons, List.map_nil, List.reverse_cons, List.reverse_nil, List.nil_append, List.cons_append]
  rw [C43_fold_sum none _ _ n (fun l => if h : l < n then A i ⟨l, h⟩ else 0)]
  · rw [Finset.sum_range]
    simp
  · have : uses (.item (.item (.loc 3) (.loc 2)) (.loc 0) : Script F) 2 0 = some [(⟨1, []⟩, 1)] := rfl
    simp [Rounds, this, common, Phi.mapOpt, Place.val, extent_columns hm, hn]
  · intro l hl z
    simp only [dif_pos hl]
    exact read_vector hl (read_matrix i.isLt rfl rfl) rfl

theorem columnSums_tells {m n : Nat} (hm : 0 < m) (hn : 0 < n) (A : Matrix (Fin m) (Fin n) F) :
    tells (columnSumsScript 0) [matrixVal A] = some (vectorVal fun j => ∑ i, A i j) := by
  have hu : usesAll (foldSum (0 : F) none (.item (.item (.loc 3) (.loc 0)) (.loc 2))) 0 = some [[(⟨0, []⟩, 1)]] := rfl
  have hc : Phi.mapOpt (common [matrixVal A]) [[(⟨0, []⟩, 1)]] = some [n] := by
    simp [Phi.mapOpt, common, Place.val, extent_columns hm, hn]
  rw [columnSumsScript, tells, hu, Option.bind_some, hc, Option.bind_some]
  refine table_vector _ fun j => ?_
  simp only [List.map_cons, List.map_nil, List.reverse_cons, List.reverse_nil, List.nil_append, List.cons_append]
  rw [C43_fold_sum none _ _ m (fun l => if h : l < m then A ⟨l, h⟩ j else 0)]
  · rw [Finset.sum_range]
    simp
  · have : uses (.item (.item (.loc 3) (.loc 0)) (.loc 2) : Script F) 2 0 = some [(⟨1, []⟩, 0)] := rfl
    simp [Rounds, this, common, Phi.mapOpt, Place.val, extent_matrix, hm]
  · intro l hl z
    simp only [dif_pos hl]
    exact read_vector j.isLt (read_matrix hl rfl rfl) rfl

theorem total_tells {m n : Nat} (hm : 0 < m) (hn : 0 < n) (A : Matrix (Fin m) (Fin n) F) :
    tells (totalScript 0) [matrixVal A] = some (.sc (.f (∑ i, ∑ j, A i j))) := by
  rw [totalScript, C43_fold_sum none _ _ m (fun i => if h : i < m then ∑ j, A ⟨i, h⟩ j else 0)]
  · rw [Finset.sum_range]
    simp
  · have : uses (foldSum (0 : F) none (.item (.item (.loc 4) (.loc 2)) (.loc 0))) 2 0 = some [(⟨0, []⟩, 0)] := rfl
    simp [Rounds, this, common, Phi.mapOpt, Place.val, extent_matrix, hm]
  · intro i hi z
    simp only [dif_pos hi]
    rw [C43_fold_sum none _ _ n (fun l => if h : l < n then A ⟨i, hi⟩ ⟨l, h⟩ else 0)]
    · rw [Finset.sum_range]
      simp
    · have : uses (.item (.item (.loc 4) (.loc 2)) (.loc 0) : Script F) 2 0 = some [(⟨2, []⟩, 1)] := rfl
      simp [Rounds, this, common, Phi.mapOpt, Place.val, extent_columns hm, hn]
    · intro l hl z
      simp only [dif_pos hl]
      exact read_vector hl (read_matrix hi rfl rfl) rfl

theorem add_tells {a b : Script F} {vs : List (PVal F)} {x y : F} (ha : tells a vs = some (.sc (.f x))) (hb : tells b vs = some (.sc (.f y))) :
    tells (.bin .add a b) vs = some (.sc (.f (x + y))) := by
  rw [tells, ha, hb]
  simp [toScal, applyPy, applyOp, ExactFloat.add]

theorem symmetricStep_tells {n : Nat} (hn : 0 < n) (A : Matrix (Fin n) (Fin n) F) (vs : List (PVal F)) :
    tells symmetricStep (matrixVal A :: vs) = some (matrixVal (A + A.transpose)) := by
  have hu : usesAll (.bin .add (.item (.item (.loc 2) (.loc 1)) (.loc 0)) (.item (.item (.loc 2) (.loc 0)) (.loc 1)) : Script F) 1 =
      some [[(⟨0, []⟩, 0), (⟨0, []⟩, 1)], [(⟨0, []⟩, 1), (⟨0, []⟩, 0)]] := rfl
  have hc : Phi.mapOpt (common (matrixVal A :: vs)) [[(⟨0, []⟩, 0), (⟨0, []⟩, 1)], [(⟨0, []⟩, 1), (⟨0, []⟩, 0)]] = some [n, n] := by
    simp [Phi.mapOpt, common, Place.val, extent_matrix, extent_columns hn, hn]
  rw [symmetricStep, tells, hu, Option.bind_some, hc, Option.bind_some]
  refine table_matrix _ fun i j => ?_
  exact add_tells (read_vector j.isLt (read_matrix i.isLt rfl rfl) rfl) (read_vector i.isLt (read_matrix j.isLt rfl rfl) rfl)

theorem symmetric_tells {n : Nat} (hn : 0 < n) (A : Matrix (Fin n) (Fin n) F) :
    tells symmetricScript [matrixVal A] = some (matrixVal ((4 : F) • (A + A.transpose))) := by
  rw [symmetricScript, tells, tells, symmetricStep_tells hn, Option.bind_some, symmetricStep_tells hn, Option.bind_some, symmetricStep_tells hn]
  congr 2
  ext i j
  simp only [Matrix.add_apply, Matrix.transpose_apply, Matrix.smul_apply, smul_eq_mul]
  ring

theorem smooth_tells (h2 : (2 : F) ≠ 0) {n : Nat} (hn : 0 < n) (g : Nat → F) :
    tells (smoothScript 2) [vectorVal fun i : Fin n => g i] =
      some (vectorVal fun i : Fin n => if 0 < (i : Nat) ∧ (i : Nat) + 1 < n then (g (i - 1) + g (i + 1)) / 2 else g i) := by
  have hs : tells (.size (.loc 0) 0) [vectorVal fun i : Fin n => g i] = some (.sc (.i n)) := by
    simp [tells, extent_vector]
  have hu : usesAll (.choose (.bin .and (.bin .gt (.loc 0) (.lit (.i 0))) (.bin .lt (.bin .add (.loc 0) (.lit (.i 1))) (.loc 1)))
    (.bin .truediv (.bin .add (.item (.loc 2) (.bin .sub (.loc 0) (.lit (.i 1)))) (.item (.loc 2) (.bin .add (.loc 0) (.lit (.i 1))))) (.lit (.f 2)))
    (.item (.loc 2) (.loc 0)) : Script F) 0 = some [[(⟨1, []⟩, 0)]] := rfl
  have hc : Phi.mapOpt (common [(.sc (.i n) : PVal F), vectorVal fun i : Fin n => g i]) [[(⟨1, []⟩, 0)]] = some [n] := by
    simp [Phi.mapOpt, common, Place.val, extent_vector, hn]
  rw [smoothScript, tells, hs, Option.bind_some, tells, hu, Option.bind_some, hc, Option.bind_some]
  refine table_vector _ fun i => ?_
  simp only [List.map_cons, List.map_nil, List.reverse_cons, List.reverse_nil, List.nil_append, List.cons_append, tells,
    List.getElem?_cons_succ, List.getElem?_cons_zero, Option.bind_some, toScal, toInt, toList, applyPy, applyOp, Option.map_some, vectorVal,
    element_clamp hn, ExactFloat.add, ExactFloat.mul, ExactFloat.recip _ h2]
  have hi := i.isLt
  have e3 : min ((i : Nat) : Int).toNat (n - 1) = i := by omega
  by_cases h : 0 < (i : Nat) ∧ (i : Nat) + 1 < n
  · have e1 : min (((i : Nat) : Int) - 1).toNat (n - 1) = i - 1 := by omega
    have e2 : min (((i : Nat) : Int) + 1).toNat (n - 1) = i + 1 := by omega
    have h3 : (0 : Int) < (i : Nat) := by omega
    have h4 : ((i : Nat) : Int) + 1 < n := by omega
    simp only [e1, e2, h3, h4, if_pos h, div_eq_mul_inv]
    rfl
  · have h5 : (decide ((0 : Int) < (i : Nat)) && decide (((i : Nat) : Int) + 1 < n)) = false := by
      rw [Bool.and_eq_false_iff]
      simp only [decide_eq_false_iff_not]
      omega
    simp only [e3, h5, if_neg h]
    rfl
end

section
variable [FloatOrder F]

theorem minPlus_tells {m p n : Nat} (hm : 0 < m) (hp : 0 < p) (hn : 0 < n) (A : Matrix (Fin m) (Fin p) F) (B : Matrix (Fin p) (Fin n) F)
    (h : ∀ i k j, FloatOrder.num (FloatOps.add (A i k) (B k j))) :
    ∃ D, IsMinPlus A B D ∧ tells (minPlusScript FloatOrder.inf) [matrixVal A, matrixVal B] = some (matrixVal D) := by
  have key : ∀ (i : Fin m) (j : Fin n), ∃ x, (∃ k, x = FloatOps.add (A i k) (B k j) ∧ ∀ l, FloatOps.le x (FloatOps.add (A i l) (B l j)) = true) ∧
      tells (foldMin (FloatOrder.inf : F) none (.bin .add (.item (.item (.loc 4) (.loc 3)) (.loc 0)) (.item (.item (.loc 5) (.loc 0)) (.loc 2))))
        [.sc (.i j), .sc (.i i), matrixVal A, matrixVal B] = some (.sc (.f x)) := by
    intro i j
    obtain ⟨k, hk, ht⟩ := (C43_fold_min none (.bin .add (.item (.item (.loc 4) (.loc 3)) (.loc 0)) (.item (.item (.loc 5) (.loc 0)) (.loc 2)))
      [.sc (.i j), .sc (.i i), matrixVal A, matrixVal B] p (fun k => if h : k < p then FloatOps.add (A i ⟨k, h⟩) (B ⟨k, h⟩ j) else FloatOrder.inf) (by
        have : uses (.bin .add (.item (.item (.loc 4) (.loc 3)) (.loc 0)) (.item (.item (.loc 5) (.loc 0)) (.loc 2)) : Script F) 2 0 =
          some [(⟨2, []⟩, 1), (⟨3, []⟩, 0)] := rfl
        simp [Rounds, this, common, Phi.mapOpt, Place.val, extent_matrix, extent_columns hm, hp]) (by
        intro k hk z
        simp only [dif_pos hk]
        rw [tells, read_vector hk (read_matrix (A := A) i.isLt rfl rfl) rfl, read_vector j.isLt (read_matrix (A := B) hk rfl rfl) rfl]
        rfl) (by
        intro k hk
        simp only [dif_pos hk]
        exact h _ _ _)).2 hp
    refine ⟨_, ⟨⟨k, hk.1⟩, ?_, ?_⟩, ht⟩
    · simp only [dif_pos hk.1]
    · intro l
      have := hk.least l l.isLt
      simpa [l.isLt] using this
  choose D hD ht using key
  refine ⟨Matrix.of D, hD, ?_⟩
  have hu : usesAll (foldMin (FloatOrder.inf : F) none (.bin .add (.item (.item (.loc 4) (.loc 3)) (.loc 0)) (.item (.item (.loc 5) (.loc 0)) (.loc 2)))) 1 =
      some [[(⟨0, []⟩, 0)], [(⟨1, []⟩, 1)]] := rfl
  have hc : Phi.mapOpt (common [matrixVal A, matrixVal B]) [[(⟨0, []⟩, 0)], [(⟨1, []⟩, 1)]] = some [m, n] := by
    simp [Phi.mapOpt, common, Place.val, extent_matrix, extent_columns hp, hm, hn]
  rw [minPlusScript, tells, hu, Option.bind_some, hc, Option.bind_some]
  exact table_matrix _ fun i j => ht i j

theorem span_tells {n : Nat} (hn : 0 < n) (u v : Fin n → F) (h : ∀ i, FloatOrder.num (FloatOps.mul (u i) (v i))) :
    ∃ k l, (∀ i, FloatOps.le (FloatOps.mul (u i) (v i)) (FloatOps.mul (u k) (v k)) = true) ∧
      (∀ i, FloatOps.le (FloatOps.mul (u l) (v l)) (FloatOps.mul (u i) (v i)) = true) ∧
      tells (spanScript FloatOrder.inf FloatOrder.ninf) [vectorVal u, vectorVal v] =
        some (.sc (.f (FloatOps.sub (FloatOps.mul (u k) (v k)) (FloatOps.mul (u l) (v l))))) := by
  have hr : Rounds none (.bin .mul (.item (.loc 2) (.loc 0)) (.item (.loc 3) (.loc 0)) : Script F) 2 [vectorVal u, vectorVal v] n := by
    have : uses (.bin .mul (.item (.loc 2) (.loc 0)) (.item (.loc 3) (.loc 0)) : Script F) 2 0 = some [(⟨0, []⟩, 0), (⟨1, []⟩, 0)] := rfl
    simp [Rounds, this, common, Phi.mapOpt, Place.val, extent_vector, hn]
  have hf : FoldNumbers (.bin .mul (.item (.loc 2) (.loc 0)) (.item (.loc 3) (.loc 0)) : Script F) [vectorVal u, vectorVal v] n
      (fun k => if h : k < n then FloatOps.mul (u ⟨k, h⟩) (v ⟨k, h⟩) else FloatOrder.inf) := by
    intro k hk z
    simp only [dif_pos hk]
    rw [tells, read_vector (u := u) hk rfl rfl, read_vector (u := v) hk rfl rfl]
    rfl
  have hu : ∀ i < n, FloatOrder.num ((fun k => if h : k < n then FloatOps.mul (u ⟨k, h⟩) (v ⟨k, h⟩) else (FloatOrder.inf : F)) i) := by
    intro k hk
    simp only [dif_pos hk]
    exact h _
  obtain ⟨k, hk, h1⟩ := (C43_fold_max none _ _ n _ hr hf hu).2 hn
  obtain ⟨l, hl, h2⟩ := (C43_fold_min none _ _ n _ hr hf hu).2 hn
  refine ⟨⟨k, hk.1⟩, ⟨l, hl.1⟩, ?_, ?_, ?_⟩
  · intro i
    have := hk.greatest i i.isLt
    simpa [i.isLt, hk.1] using this
  · intro i
    have := hl.least i i.isLt
    simpa [i.isLt, hl.1] using this
  · rw [spanScript, tells, h1, h2]
    simp [toScal, applyPy, applyOp, hk.1, hl.1]

end

/-! ### The values of what the library makes -/

section
variable [DecidableEq F]

/-- C45: trial division finds the prime numbers less than `n`. -/
theorem C45_trial_division (I : Ext F) (n : Int) :
    Makes I trialScript [.sc .int] [.sc (.i n)] (flagsVal fun i : Fin n.toNat => decide (i : Nat).Prime) :=
  Ready.makes I (t := .arr (.sc .bool)) ⟨rfl, rfl, rfl⟩ (by simp [isArray]) (trial_tells n)

/-- C45: the sieve finds the prime numbers less than `n`. -/
theorem C45_sieve (I : Ext F) (n : Int) :
    Makes I sieveScript [.sc .int] [.sc (.i n)] (flagsVal fun i : Fin n.toNat => decide (i : Nat).Prime) :=
  Ready.makes I (t := .arr (.sc .bool)) ⟨rfl, rfl, rfl⟩ (by simp [isArray]) (sieve_tells n)

/-- C45: the first `n` numbers of Fibonacci. -/
theorem C45_fibonacci (I : Ext F) (n : Int) :
    Makes I fibScript [.sc .int] [.sc (.i n)] (integersVal fun j : Fin n.toNat => (Nat.fib j : Int)) :=
  Ready.makes I (t := .arr (.sc .int)) ⟨rfl, rfl, rfl⟩ (by simp [isArray]) (fib_tells n)

/-- C45: the sum of the numbers less than `n`. -/
theorem C45_gauss (I : Ext F) {n : Nat} (hn : 0 < n) : Makes I gaussScript [.sc .int] [.sc (.i n)] (.sc (.i (n * (n - 1) / 2 : Nat))) := by
  have h : ((n * (n - 1) / 2 : Nat) : Int) = ∑ i ∈ Finset.range n, (i : Int) := by
    rw [← Finset.sum_range_id]
    simp
  rw [h]
  exact Ready.makes I (t := .sc .int) ⟨rfl, rfl, rfl⟩ (by simp [isArray]) (gauss_tells hn)

section
variable [FloatOrder F]

/-- C45: the minimum-plus product of matrices. -/
theorem C45_min_plus (I : Ext F) {m p n : Nat} (hm : 0 < m) (hp : 0 < p) (hn : 0 < n) (A : Matrix (Fin m) (Fin p) F) (B : Matrix (Fin p) (Fin n) F)
    (h : ∀ i k j, FloatOrder.num (FloatOps.add (A i k) (B k j))) :
    ∃ D, IsMinPlus A B D ∧ Makes I (minPlusScript FloatOrder.inf) [matrixUTy, matrixUTy] [matrixVal A, matrixVal B] (matrixVal D) := by
  obtain ⟨D, h1, h2⟩ := minPlus_tells hm hp hn A B h
  exact ⟨D, h1, Ready.makes I (t := matrixUTy) ⟨rfl, rfl, rfl⟩ (by simp [isArray, matrixUTy]) h2⟩

/-- C45: the greatest product of elements minus the least one. -/
theorem C45_span (I : Ext F) {n : Nat} (hn : 0 < n) (u v : Fin n → F) (h : ∀ i, FloatOrder.num (FloatOps.mul (u i) (v i))) :
    ∃ k l, (∀ i, FloatOps.le (FloatOps.mul (u i) (v i)) (FloatOps.mul (u k) (v k)) = true) ∧
      (∀ i, FloatOps.le (FloatOps.mul (u l) (v l)) (FloatOps.mul (u i) (v i)) = true) ∧
      Makes I (spanScript FloatOrder.inf FloatOrder.ninf) [vectorTy, vectorTy] [vectorVal u, vectorVal v]
        (.sc (.f (FloatOps.sub (FloatOps.mul (u k) (v k)) (FloatOps.mul (u l) (v l))))) := by
  obtain ⟨k, l, h1, h2, h3⟩ := span_tells hn u v h
  exact ⟨k, l, h1, h2, Ready.makes I (t := .sc .float) ⟨rfl, rfl, rfl⟩ (by simp [isArray, vectorTy]) h3⟩

end

section
variable [Field F] [LinearOrder F] [ExactFloat F]

/-- C45: a power of a matrix times a vector. -/
theorem C45_power (I : Ext F) {n : Nat} (hn : 0 < n) (A : Matrix (Fin n) (Fin n) F) (k : Int) (v : Fin n → F) :
    Makes I (powerVectorScript 0 1) [matrixUTy, .sc .int, vectorTy] [matrixVal A, .sc (.i k), vectorVal v]
      (vectorVal ((A ^ (2 * k.toNat)).mulVec v)) :=
  Ready.makes I (t := vectorTy) ⟨rfl, rfl, rfl⟩ (by simp [isArray, matrixUTy, vectorTy]) (powerVector_tells hn A k v)

/-- C45: the diagonal of a matrix. -/
theorem C45_diagonal (I : Ext F) {n : Nat} (hn : 0 < n) (A : Matrix (Fin n) (Fin n) F) :
    Makes I diagonalScript [matrixUTy] [matrixVal A] (vectorVal A.diag) :=
  Ready.makes I (t := vectorTy) ⟨rfl, rfl, rfl⟩ (by simp [isArray, matrixUTy]) (diagonal_tells hn A)

/-- C45: the sums of the rows, of the columns, and of all elements of a matrix. -/
theorem C45_sums (I : Ext F) {m n : Nat} (hm : 0 < m) (hn : 0 < n) (A : Matrix (Fin m) (Fin n) F) :
    Makes I (rowSumsScript 0) [matrixUTy] [matrixVal A] (vectorVal fun i => ∑ j, A i j) ∧
    Makes I (columnSumsScript 0) [matrixUTy] [matrixVal A] (vectorVal fun j => ∑ i, A i j) ∧
    Makes I (totalScript 0) [matrixUTy] [matrixVal A] (.sc (.f (∑ i, ∑ j, A i j))) :=
  ⟨Ready.makes I (t := vectorTy) ⟨rfl, rfl, rfl⟩ (by simp [isArray, matrixUTy]) (rowSums_tells hm hn A),
    Ready.makes I (t := vectorTy) ⟨rfl, rfl, rfl⟩ (by simp [isArray, matrixUTy]) (columnSums_tells hm hn A),
    Ready.makes I (t := .sc .float) ⟨rfl, rfl, rfl⟩ (by simp [isArray, matrixUTy]) (total_tells hm hn A)⟩

/-- C45: three symmetric sums. -/
theorem C45_symmetric (I : Ext F) {n : Nat} (hn : 0 < n) (A : Matrix (Fin n) (Fin n) F) :
    Makes I symmetricScript [matrixUTy] [matrixVal A] (matrixVal ((4 : F) • (A + A.transpose))) :=
  Ready.makes I (t := matrixUTy) ⟨rfl, rfl, rfl⟩ (by simp [isArray, matrixUTy]) (symmetric_tells hn A)

/-- C45: the means of neighbours; the first and the last element are kept. -/
theorem C45_smooth (I : Ext F) (h2 : (2 : F) ≠ 0) {n : Nat} (hn : 0 < n) (g : Nat → F) :
    Makes I (smoothScript 2) [vectorTy] [vectorVal fun i : Fin n => g i]
      (vectorVal fun i : Fin n => if 0 < (i : Nat) ∧ (i : Nat) + 1 < n then (g (i - 1) + g (i + 1)) / 2 else g i) :=
  Ready.makes I (t := vectorTy) ⟨rfl, rfl, rfl⟩ (by simp [isArray, vectorTy]) (smooth_tells h2 hn g)

end

end

/-! ### Examples -/

namespace C45Example
open Verif.Toy

/-- The prime numbers less than 8. -/
example : tells (sieveScript : Script Int) [.sc (.i 8)] =
    some (.arr ([false, false, true, true, false, true, false, true].map fun b => .sc (.b b))) := by decide +kernel
example : tells (trialScript : Script Int) [.sc (.i 8)] = tells sieveScript [.sc (.i 8)] := by decide +kernel

/-- The numbers of the test. -/
example : tells (fibScript : Script Int) [.sc (.i 8)] = some (.arr ([0, 1, 1, 2, 3, 5, 8, 13].map fun n => .sc (.i n))) := by decide +kernel

/-- `0 + 1 + 2 + 3 + 4 = 10` -/
example : tells (gaussScript : Script Int) [.sc (.i 5)] = some (.sc (.i 10)) := by decide +kernel

def theEnv : Env (D ℚ)
  | .var 0 => some (.sc (.i 8))
  | _ => none

theorem theEnv_regular : RegularEnv theEnv := by
  intro s v h
  unfold theEnv at h
  split at h
  · cases h; decide +kernel
  · cases h

/-- There are arguments that hold 8, so what the library makes from these holds the prime numbers less than 8. -/
example : ∃ args o c', argObjs 0 [(UTy.sc .int).ty] = some args ∧ Phi.mapOpt (value (fun _ _ => none) theEnv) args = some [.sc (.i 8)] ∧
    make sieveScript args 1 = some (o, c') ∧ value (fun _ _ => none) theEnv o = some (flagsVal fun i : Fin 8 => decide (i : Nat).Prime) := by
  have h1 : ∃ args, argObjs (F := ℚ) 0 [(UTy.sc .int).ty] = some args ∧
      Phi.mapOpt (value (fun _ _ => none) theEnv) args = some [.sc (.i 8)] := ⟨_, rfl, rfl⟩
  obtain ⟨args, h1, h2⟩ := h1
  obtain ⟨o, c', h3, h4⟩ := C45_sieve (fun _ _ => none) 8 0 args theEnv h1 theEnv_regular h2
  exact ⟨args, o, c', h1, h2, h3, h4⟩

/-- The matrix of Fibonacci. -/
def A : Matrix (Fin 2) (Fin 2) ℚ := !![1, 1; 1, 0]

example (I : Ext ℚ) := C45_power I (by decide) A 3 ![1, 0]
example (I : Ext ℚ) := C45_diagonal I (by decide) A
example (I : Ext ℚ) := C45_sums I (by decide) (by decide) A
example (I : Ext ℚ) := C45_symmetric I (by decide) A
example (I : Ext ℚ) := C45_smooth I (by norm_num) (n := 5) (by decide) fun i => (i : ℚ) * i
example (I : Ext Fl) := C45_min_plus I (by decide) (by decide) (by decide) !![Fl.fin 1, .fin 5] !![Fl.fin 2; .fin (-3)]
  (by intro i k j; fin_cases i; fin_cases j; fin_cases k <;> exact fun h => nomatch h)
example (I : Ext Fl) := C45_span I (by decide) ![Fl.fin 1, .fin 5] ![Fl.fin 2, .fin (-3)] (by intro i; fin_cases i <;> exact fun h => nomatch h)

/-- `A ^ 6 * (1, 0) = (13, 8)` -/
example : tells (powerVectorScript (0 : Int) 1) [.arr [.arr [.sc (.f 1), .sc (.f 1)], .arr [.sc (.f 1), .sc (.f 0)]], .sc (.i 3),
    .arr [.sc (.f 1), .sc (.f 0)]] = some (.arr [.sc (.f 13), .sc (.f 8)]) := by decide +kernel

end C45Example

end Verif.Props
