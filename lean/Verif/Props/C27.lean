import Verif.Backend.Naive
import Verif.Toy

/-! C27: counted folds iterate exactly. -/

namespace Verif.Props
open Verif.Phi Verif.Term Verif.Backend

/-- Specification: `r` is obtained from `z` by `n` steps with counters `0, 1, …, n-1` in this order, each
step starting from the result of the previous one. -/
def Iterated {A : Type} (step : Nat → A → Option A) (n : Nat) (z r : A) : Prop :=
  ∃ s : Nat → A, s 0 = z ∧ (∀ i < n, step i (s i) = some (s (i + 1))) ∧ s n = r

theorem loopOpt_iff_iterated {A : Type} (step : Nat → A → Option A) (n : Nat) (z r : A) :
    loopOpt (fun a i => step i a) z (List.range n) = some r ↔ Iterated step n z r := by
  have key : ∀ (m k : Nat) (z : A), loopOpt (fun a i => step i a) z (List.range' k m) = some r ↔
      ∃ s : Nat → A, s 0 = z ∧ (∀ i < m, step (k + i) (s i) = some (s (i + 1))) ∧ s m = r := by
    intro m
    induction m with
    | zero =>
      intro k z
      simp only [List.range'_zero, loopOpt, Option.some.injEq]
      exact ⟨fun h => ⟨fun _ => z, rfl, by omega, h⟩, by rintro ⟨s, rfl, _, h⟩; exact h⟩
    | succ m ih =>
      intro k z
      rw [List.range'_succ, loopOpt, Option.bind_eq_some_iff]
      constructor
      · rintro ⟨z', h1, h2⟩
        obtain ⟨s, rfl, h3, h4⟩ := (ih (k + 1) z').1 h2
        refine ⟨fun i => match i with | 0 => z | i + 1 => s i, rfl, ?_, h4⟩
        intro i hi
        cases i with
        | zero => exact h1
        | succ i => have := h3 i (by omega); rwa [show k + 1 + i = k + (i + 1) by omega] at this
      · rintro ⟨s, rfl, h3, h4⟩
        refine ⟨s 1, h3 0 (by omega), (ih (k + 1) _).2 ⟨fun i => s (i + 1), rfl, fun i hi => ?_, h4⟩⟩
        have := h3 (i + 1) (by omega)
        rwa [show k + (i + 1) = k + 1 + i by omega] at this
  rw [List.range_eq_range', key n 0 z]
  simp [Iterated]

variable {F : Type} [FloatOps F]

/-- The value of the body on the interpreter at counter `i` and accumulator `x`. -/
def naiveStep (I : Ext F) (c a : Nat) (body : Expr F) (env : Env (D F)) (i : Nat) (x : D F) :
    Option (D F) :=
  (interp I body ((env.set (.var a) (some x)).set (.var c) (some (.int i)))).map Prod.fst

/-- C27 on the interpreter, for counts that are not negative: the result of a fold (over a program with
distinct binders that are not bound in the dictionary) is exactly the `k`-fold iteration of the body. -/
theorem C27_interpreter_partial (I : Ext F) (c a : Nat) (size init body : Expr F) (env : Env (D F))
    (k : Int) (z : D F)
    (hns : NoShadow (fold c a size init body))
    (hd : ∀ u, Occurs u (fold c a size init body) → Distinct u.head)
    (hb : ∀ s ∈ binders (fold c a size init body), env s = none)
    (hk : (interp I size env).map Prod.fst = some (.int k))
    (hz : (interp I init env).map Prod.fst = some z) (hpos : 0 ≤ k) (r : D F) :
    (interp I (fold c a size init body) env).map Prod.fst = some r ↔
      Iterated (naiveStep I c a body env) k.toNat z r := by
  have hmf : ∀ (o : Option (D F)) (e : Env (D F)), (o.map (·, e)).map Prod.fst = o := by
    intro o e; cases o <;> rfl
  have hs : ∀ t ∈ [size, init, body], NoShadow t ∧ (∀ u, Occurs u t → Distinct u.head) ∧
      (∀ s ∈ binders t, env s = none) ∧ Disjoint (Head.captured (F := F) (.fold c a)) (binders t) :=
    fun t ht => ⟨hns.children t ht, fun u hu => hd u (.child ht hu),
      fun s hs => hb s (binders_child_subset ht hs), hns.disjoint t ht⟩
  obtain ⟨n1, d1, b1, _⟩ := hs size (by simp)
  obtain ⟨n2, d2, b2, _⟩ := hs init (by simp)
  obtain ⟨n3, d3, b3, e3⟩ := hs body (by simp)
  rw [interp_eq I _ n1 d1 env b1, hmf] at hk
  rw [interp_eq I _ n2 d2 env b2, hmf] at hz
  rw [interp_eq I _ hns hd env hb, hmf, fold, runNaive_node]
  simp only [List.map, naiveDen, runDen, foldOf, hk, hz, Option.bind_some, Val.asInt, hpos, if_true]
  rw [← loopOpt_iff_iterated]
  have : (naiveStep I c a body env) = fun (i : Nat) (x : D F) =>
      runNaive I body ((env.set (.var a) (some x)).set (.var c) (some (.int i))) := by
    funext i x
    rw [naiveStep, interp_eq I _ n3 d3 _ ?_, hmf]
    intro s hs
    have hs' := Finset.disjoint_right.1 e3 hs
    simp only [Head.captured, Finset.mem_insert, Finset.mem_singleton, not_or] at hs'
    rw [get_set_ne _ hs'.1, get_set_ne _ hs'.2]
    exact b3 s hs
  rw [this]

/-- C27 on array backends, for every count: the result is the iteration of the body for counters
`0, …, count-1`, and the initial value if the count is zero or negative. The body must restore the
dictionary (C19). -/
theorem C27_array_backend {V : Type} (asInt : V → Option Int) (ofNat : Nat → V) (c a : Nat)
    (count init body : Mut V) (env : Env V) (nv z : V) (k : Int) (hca : c ≠ a)
    (hc : env (.var c) = none) (ha : env (.var a) = none) (hn : count env = some (nv, env))
    (hk : asInt nv = some k) (hz : init env = some (z, env))
    (hbody : ∀ i x r e, body ((env.set (.var a) (some x)).set (.var c) (some i)) = some (r, e) →
      e = (env.set (.var a) (some x)).set (.var c) (some i)) (r : V) :
    (foldImpl asInt ofNat c a count init body env).map Prod.fst = some r ↔
      Iterated (fun i x => (body ((env.set (.var a) (some x)).set (.var c) (some (ofNat i)))).map Prod.fst)
        (if k ≤ 0 then 0 else k.toNat) z r := by
  have hk' : (if k ≤ 0 then 0 else k.toNat) = k.toNat := by split_ifs <;> omega
  rw [hk', ← loopOpt_iff_iterated]
  rw [foldImpl_eq hca hc ha (cg := fun _ => some nv) (ig := fun _ => some z)
    (g := fun e => (body e).map Prod.fst) hn hz (fun acc i => ?_)]
  · simp only [Option.bind_some, hk]
    cases loopOpt _ z (List.range k.toNat) <;> rfl
  · cases h : body ((env.set (.var a) (some acc)).set (.var c) (some i)) with
    | none => rfl
    | some q => obtain ⟨q1, q2⟩ := q; rw [hbody _ _ _ _ h]; rfl

/-- No iteration: the initial value. -/
theorem C27_no_iteration {A : Type} (step : Nat → A → Option A) (z r : A) :
    Iterated step 0 z r ↔ r = z :=
  ⟨by rintro ⟨s, rfl, _, rfl⟩; rfl, by rintro rfl; exact ⟨fun _ => r, rfl, by omega, rfl⟩⟩

/-- With a negative count the interpreter raises instead of returning the initial value: it deletes a
counter that was never bound. -/
theorem C27_negative_count_counterexample :
    let p : Expr Int := fold 0 1 (int (-1)) (int 7) (op2 .add (Toy.ivar 1) (Toy.ivar 0))
    interp Toy.noExt p (fun _ => none) = none := by
  rfl

/-- Non-vacuity: `7 + 0 + 1 + 2 + 3` on the interpreter. -/
example :
    let p : Expr Int := fold 0 1 (int 4) (int 7) (op2 .add (Toy.ivar 1) (Toy.ivar 0))
    (interp Toy.noExt p (fun _ => none)).map Prod.fst = some (.int 13) := by decide +kernel

/-- Non-vacuity: the hypotheses of `C27_array_backend` hold, and the negative count gives the initial
value. -/
example (k : Int) :
    let body : Mut Int := fun e =>
      (e (.var 1)).bind fun x => (e (.var 0)).bind fun i => some (2 * x + i, e)
    (foldImpl (fun v => some v) (fun i => (i : Int)) 0 1 (fun e => some (k, e)) (fun e => some (1, e)) body
      (fun _ => none)).map Prod.fst = some 1 ↔
      Iterated (fun i x => some (2 * x + (i : Int))) (if k ≤ 0 then 0 else k.toNat) 1 1 := by
  intro body
  refine (C27_array_backend (fun v => some v) (fun i => (i : Int)) 0 1 (fun e => some (k, e))
    (fun e => some (1, e)) body (fun _ => none) k 1 k (by decide) rfl rfl rfl rfl rfl ?_ 1).trans ?_
  · intro i x r e h
    simp [body, Env.set] at h
    exact h.2.symm
  · simp [body, Env.set]

end Verif.Props
