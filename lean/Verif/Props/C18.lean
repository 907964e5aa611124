import Verif.Frontend.Functions
import Verif.Toy

/-! C18: decorated functions are cached transparently. -/

namespace Verif.Props
open Verif.Frontend

section
variable {Arg Ty B Prog Code Res Err : Type} [DecidableEq Ty] [DecidableEq B]
  (S : Setup Arg Ty B Prog Code Res Err)

/-! ### Specification -/

/-- Trace the function for the types of the arguments, stage the program and run it, with no cache. -/
def afresh (supply : Nat) (args : List Arg) (b : B) : Except Err Res :=
  match typesFromArgs S args with
  | .error e => .error e
  | .ok types =>
    match (S.trace supply types).1 with
    | .error e => .error e
    | .ok (vars, prog) =>
      match S.stage b prog with
      | .error e => .error e
      | .ok code => S.exec code (vars.zip args)

/-- The user's function is pure: which fresh variables it is traced with makes no difference to the
outcome of a call. -/
def Pure : Prop := ∀ s s' args b, afresh S s args b = afresh S s' args b

/-! ### Proof -/

/-- What is cached was obtained by tracing and staging for the key. -/
def CacheOk (σ : FState Ty B Code) : Prop :=
  ∀ types b vars code, lookup (types, b) σ.staged = some (vars, code) →
    ∃ s prog, (S.trace s types).1 = .ok (vars, prog) ∧ S.stage b prog = .ok code

omit [DecidableEq Ty] [DecidableEq B] in
theorem lookup_nil [DecidableEq Ty] [DecidableEq B] (k : List Ty × B) :
    lookup (Code := Code) k [] = none := rfl

theorem lookup_cons (k k' : List Ty × B) (v : List Nat × Code) (l) :
    lookup k ((k', v) :: l) = if k' = k then some v else lookup k l := by
  unfold lookup
  by_cases h : k' = k
  · simp [h]
  · simp [h]

theorem cacheOk_init (s : Nat) : CacheOk S (FState.init s) := by
  intro types b vars code h
  simp [FState.init, lookup_nil] at h

theorem call_ok {σ : FState Ty B Code} (hσ : CacheOk S σ) (hp : Pure S) (args : List Arg) (b : B)
    (s : Nat) : (call S σ args b).1 = afresh S s args b ∧ CacheOk S (call S σ args b).2 := by
  cases ht : typesFromArgs S args with
  | error e => simp only [call, ht]; exact ⟨by simp only [afresh, ht], hσ⟩
  | ok types =>
    cases hl : lookup (types, b) σ.staged with
    | some vc =>
      obtain ⟨vars, code⟩ := vc
      simp only [call, ht, hl]
      refine ⟨?_, hσ⟩
      obtain ⟨s', prog, h1, h2⟩ := hσ types b vars code hl
      rw [hp s s']
      simp only [afresh, ht, h1, h2]
    | none =>
      rw [hp s σ.supply]
      simp only [call, ht, hl]
      cases htr : S.trace σ.supply types with
      | mk res s2 =>
        cases res with
        | error e => simp only [htr, afresh, ht]; exact ⟨trivial, hσ⟩
        | ok vp =>
          obtain ⟨vars, prog⟩ := vp
          cases hst : S.stage b prog with
          | error e => simp only [hst, afresh, ht, htr]; exact ⟨trivial, hσ⟩
          | ok code =>
            simp only [hst, afresh, ht, htr]
            refine ⟨trivial, ?_⟩
            intro types' b' vars' code' h
            rw [lookup_cons] at h
            by_cases hk : (types, b) = (types', b')
            · rw [if_pos hk] at h
              simp only [Prod.mk.injEq, Option.some.injEq] at hk h
              obtain ⟨rfl, rfl⟩ := hk
              obtain ⟨rfl, rfl⟩ := h
              exact ⟨σ.supply, prog, by rw [htr], hst⟩
            · rw [if_neg hk] at h
              exact hσ _ _ _ _ h

theorem calls_ok (hp : Pure S) (s : Nat) : ∀ (hist : List (List Arg × B)) (σ : FState Ty B Code),
    CacheOk S σ → (calls S σ hist).1 = hist.map fun c => afresh S s c.1 c.2
  | [], _, _ => rfl
  | (args, b) :: rest, σ, hσ => by
    obtain ⟨h1, h2⟩ := call_ok S hσ hp args b s
    simp only [calls, List.map_cons]
    rw [h1, calls_ok hp s rest _ h2]

theorem lookup_none_iff (k : List Ty × B) (l : List ((List Ty × B) × (List Nat × Code))) :
    lookup k l = none ↔ k ∉ l.map Prod.fst := by
  induction l with
  | nil => simp [lookup_nil]
  | cons p l ih =>
    obtain ⟨k', v⟩ := p
    rw [lookup_cons, List.map_cons, List.mem_cons, not_or]
    by_cases h : k' = k
    · simp [h]
    · rw [if_neg h, ih]; simp [Ne.symm h]

/-! ### Properties -/

/-- C18: in every history of calls, with any interleaving of arguments and backends, each call returns
(or raises) what tracing, staging and running the function afresh does. -/
theorem C18_transparent (hp : Pure S) (s₀ s : Nat) (hist : List (List Arg × B)) :
    (calls S (FState.init s₀) hist).1 = hist.map fun c => afresh S s c.1 c.2 :=
  calls_ok S hp s hist _ (cacheOk_init S s₀)

/-- C18: a call whose argument types are rejected changes nothing: neither the cache, nor the supply of
variables, and the user's function is not run. -/
theorem C18_rejected (σ : FState Ty B Code) (args : List Arg) (b : B) (e : Err)
    (h : typesFromArgs S args = .error e) : call S σ args b = (.error e, σ) := by
  simp only [call, h]

omit [DecidableEq B] in
/-- C18: with declared types, arguments of other types are rejected with a type error. -/
theorem C18_declared (ts types : List Ty) (args : List Arg) (hd : S.declared = some ts)
    (ht : args.mapM S.typeOf = .ok types) (hne : types ≠ ts) :
    typesFromArgs S args = .error S.mismatch := by
  simp [typesFromArgs, ht, hd, hne, bind, Except.bind]

/-- C18: the user's function is run by a call only if there is no staged code for its types and backend;
then once. -/
theorem C18_traced (σ : FState Ty B Code) (args : List Arg) (b : B) :
    (call S σ args b).2.traced = σ.traced ∨
      ∃ types, typesFromArgs S args = .ok types ∧ (types, b) ∉ σ.staged.map Prod.fst ∧
        (call S σ args b).2.traced = (types, b) :: σ.traced := by
  cases ht : typesFromArgs S args with
  | error e => left; simp only [call, ht]
  | ok types =>
    cases hl : lookup (types, b) σ.staged with
    | some vc => left; simp only [call, ht, hl]
    | none =>
      right
      refine ⟨types, rfl, (lookup_none_iff _ _).1 hl, ?_⟩
      simp only [call, ht, hl]
      cases htr : S.trace σ.supply types with
      | mk res s2 =>
        cases res with
        | error e => rfl
        | ok vp => cases hst : S.stage b vp.2 <;> simp [hst]

/-- Staged code is never dropped. -/
theorem staged_mono (σ : FState Ty B Code) (args : List Arg) (b : B) (k : List Ty × B)
    (h : k ∈ σ.staged.map Prod.fst) : k ∈ (call S σ args b).2.staged.map Prod.fst := by
  cases ht : typesFromArgs S args with
  | error e => simpa only [call, ht]
  | ok types =>
    cases hl : lookup (types, b) σ.staged with
    | some vc => simpa only [call, ht, hl]
    | none =>
      simp only [call, ht, hl]
      cases htr : S.trace σ.supply types with
      | mk res s2 =>
        cases res with
        | error e => exact h
        | ok vp =>
          cases hst : S.stage b vp.2 with
          | error e => simpa [hst] using h
          | ok c => simp only [hst, List.map_cons, List.mem_cons]; exact .inr h

theorem no_trace (k : List Ty × B) : ∀ (hist : List (List Arg × B)) (σ : FState Ty B Code),
    k ∈ σ.staged.map Prod.fst → (calls S σ hist).2.traced.count k = σ.traced.count k
  | [], _, _ => rfl
  | (args, b) :: rest, σ, hk => by
    simp only [calls]
    rw [no_trace k rest _ (staged_mono S σ args b k hk)]
    rcases C18_traced S σ args b with h | ⟨types, -, hn, h⟩
    · rw [h]
    · rw [h, List.count_cons_of_ne]
      rintro rfl
      exact hn hk

/-- C18: once code is staged for a key, no later call in any history runs the user's function for that
key. So the function is traced at most once per (types, backend), counting successful traces. -/
theorem C18_once (σ : FState Ty B Code) (hist : List (List Arg × B)) (k : List Ty × B)
    (hk : k ∈ σ.staged.map Prod.fst) :
    (calls S σ hist).2.traced.count k = σ.traced.count k := no_trace S k hist σ hk

/-- C18: a call that traces and stages successfully leaves staged code for its key. -/
theorem C18_stored (σ : FState Ty B Code) (args : List Arg) (b : B) (types : List Ty)
    (vars : List Nat) (prog : Prog) (code : Code) (ht : typesFromArgs S args = .ok types)
    (h1 : (S.trace σ.supply types).1 = .ok (vars, prog)) (h2 : S.stage b prog = .ok code) :
    (types, b) ∈ (call S σ args b).2.staged.map Prod.fst := by
  cases hl : lookup (types, b) σ.staged with
  | some vc =>
    simp only [call, ht, hl]
    by_contra hn
    rw [(lookup_none_iff _ _).2 hn] at hl
    cases hl
  | none =>
    simp only [call, ht, hl]
    cases htr : S.trace σ.supply types with
    | mk res s2 =>
      rw [htr] at h1
      subst h1
      simp [h2]

end

/-! ### Non-vacuity: tracing `lambda x, y: x * x + y` on scalar integers. -/

open Verif.Phi in
/-- Arguments are values; their types are integer or anything else; the program is an expression over two
fresh variables; the staged code is the interpreter. -/
def C18_example : Setup (D Int) Ty Bool (Expr Int) (Expr Int) (D Int) String where
  typeOf v := match v with
    | .sc (.i _) => .ok (.scalar .int)
    | _ => .error "unsupported"
  declared := some [.scalar .int, .scalar .int]
  mismatch := "TypeError"
  trace s types := match types with
    | [_, _] => (.ok ([s, s + 1],
        op2 .add (op2 .multiply (Toy.ivar s) (Toy.ivar s)) (Toy.ivar (s + 1))), s + 2)
    | _ => (.error "arity", s + types.length)
  stage _ e := .ok e
  exec e l := match run Toy.noExt e (Toy.envOf l) with
    | some v => .ok v
    | none => .error "failed"

example : Pure C18_example := by
  intro s s' args b
  unfold afresh
  cases ht : typesFromArgs C18_example args with
  | error e => rfl
  | ok types =>
    match types with
    | [] | [_] | _ :: _ :: _ :: _ => rfl
    | [t1, t2] =>
      match args with
      | [] => rfl
      | [x] =>
        simp [C18_example, Toy.envOf, Phi.op2, Phi.run_node, Toy.ivar, Phi.var, Phi.runDen, Phi.opOf,
          Phi.mapOpt]
      | x :: y :: _ =>
        simp [C18_example, Toy.envOf, Phi.op2, Phi.run_node, Toy.ivar, Phi.var, Phi.runDen, Phi.opOf,
          Phi.mapOpt]

example : (calls C18_example (FState.init 5)
    [([.int 3, .int 4], true), ([.int 1], false), ([.int 2, .int 2], true)]).2.traced.length = 1 := by
  decide +kernel

end Verif.Props
