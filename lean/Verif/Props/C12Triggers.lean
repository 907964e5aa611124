import Verif.Props.C12

/-!
C12, the conclusions about accumulators, without the condition that accumulators keep their lengths.

At a fold whose accumulator is one array the compiler notes four conclusions (`size_classes.py:108-130`), each with
the sizes that have to coincide before it is drawn. `C12_triggers_partial` says what they are worth: if the sizes a
conclusion rests on coincide in every round, it is right in every round. The exception is the conclusion about the
body, which is right in all rounds but the last one.
-/

set_option linter.unusedSectionVars false

namespace Verif.Props
open Verif.Phi Verif.Term Verif.Midend Verif.Codegen
variable {F : Type} [FloatOps F] [DecidableEq F] {I : Ext F} {sz : Nat → Int} {η : Env (D F)}

/-- The values of the symbols in round `k` of a fold with counter `c` and accumulator `a`, where the accumulator is `x`. -/
def roundEnv (η : Env (D F)) (c a : Nat) (x : D F) (k : Nat) : Env (D F) :=
  (η.set (.var a) (some x)).set (.var c) (some (.int k))

/-- An evaluation of a fold of `m` rounds, at least one: `xs k` is the accumulator after `k` rounds. The initial value
and the whole fold have the same value in all rounds. -/
structure FoldRounds (I : Ext F) (η : Env (D F)) (c a : Nat) (n z b : Expr F) (m : Nat) (xs : Nat → D F) : Prop where
  pos : 0 < m
  indices : ∀ i, η (.idx i) = some (.int 0)
  acc : ∀ k < m, roundEnv η c a (xs k) k (.var a) = some (xs k)
  init : ∀ k < m, run I z (roundEnv η c a (xs k) k) = some (xs 0)
  body : ∀ k < m, run I b (roundEnv η c a (xs k) k) = some (xs (k + 1))
  result : ∀ k < m, run I (fold c a n z b) (roundEnv η c a (xs k) k) = some (xs m)

/-- C12, the conclusions at a fold: if the sizes in `q.1` coincide in every round, then the size `q.2` concluded from
them is the same one, in every round.

Missing: the last round, where the conclusion is about the body (`C12_accumulator_counterexample`). -/
theorem C12_triggers_partial {c a : Nat} {n z b : Expr F} {m : Nat} {xs : Nat → D F} (ht : Tidy (fold c a n z b))
    (hr : FoldRounds I η c a n z b m xs) {l : List (List (SizeNode F) × SizeNode F)}
    (hl : sizeTriggers (.fold c a) [n, z, b] = some l) {q : List (SizeNode F) × SizeNode F} (hq : q ∈ l)
    (hp : ∀ k < m, ∀ u ∈ q.1, ∀ w ∈ q.1,
      sizeVal I sz (roundEnv η c a (xs k) k) u = sizeVal I sz (roundEnv η c a (xs k) k) w)
    {k : Nat} (hk : k < m) (hlast : k + 1 < m ∨ ¬∃ axis, q.2 = .inr (dim b axis)) :
    ∀ u ∈ q.1, sizeVal I sz (roundEnv η c a (xs k) k) u = sizeVal I sz (roundEnv η c a (xs k) k) q.2 := by
  have h0 : ∀ k i, roundEnv η c a (xs k) k (.idx i) = some (.int 0) := fun k i => by
    simpa [roundEnv, Env.set] using hr.indices i
  have hz' : Tidy z := ht.occurs (.child (List.mem_cons_of_mem _ List.mem_cons_self) (.refl _))
  have hb' : Tidy b := ht.occurs (.child (List.mem_cons_of_mem _ (List.mem_cons_of_mem _ List.mem_cons_self)) (.refl _))
  have htv : Tidy (var a ((typeOf z).getD (.scalar .int)) : Expr F) := tidy_leaf rfl
  unfold sizeTriggers at hl
  simp only at hl
  split at hl
  · obtain ⟨r, _, hl⟩ := Option.bind_eq_some_iff.1 hl
    cases hl
    obtain ⟨axis, _, hq⟩ := List.mem_flatMap.1 hq
    have v1 : ∀ k < m, sizeVal I sz (roundEnv η c a (xs k) k) (.inr (dim (var a ((typeOf z).getD (.scalar .int))) axis)) =
        dimOf axis (some (xs k)) := fun k hk => by
      rw [sizeVal_inr (htv.dim axis) (h0 k), run_dim]
      unfold var; rw [run_node]; exact congrArg _ (hr.acc k hk)
    have v2 : ∀ k < m, sizeVal I sz (roundEnv η c a (xs k) k) (.inr (dim b axis)) = dimOf axis (some (xs (k + 1))) :=
      fun k hk => by rw [sizeVal_inr (hb'.dim axis) (h0 k), run_dim, hr.body k hk]
    have v3 : ∀ k < m, sizeVal I sz (roundEnv η c a (xs k) k) (.inr (dim z axis)) = dimOf axis (some (xs 0)) :=
      fun k hk => by rw [sizeVal_inr (hz'.dim axis) (h0 k), run_dim, hr.init k hk]
    have v4 : ∀ k < m, sizeVal I sz (roundEnv η c a (xs k) k) (.inr (dim (node (.fold c a) [n, z, b]) axis)) =
        dimOf axis (some (xs m)) := fun k hk => by
      rw [sizeVal_inr (Tidy.dim (e := node (.fold c a) [n, z, b]) ht axis) (h0 k), run_dim]
      exact congrArg _ (hr.result k hk)
    simp only [List.mem_cons, List.not_mem_nil, or_false] at hq
    rcases hq with rfl | rfl | rfl | rfl
    · -- the accumulator and the body: no round changes the size
      have hs : ∀ j < m, dimOf axis (some (xs j)) = dimOf axis (some (xs (j + 1))) := fun j hj => by
        rw [← v1 j hj, ← v2 j hj]; exact hp j hj _ (by simp) _ (by simp)
      have hall : ∀ j, j ≤ m → dimOf axis (some (xs j)) = dimOf axis (some (xs 0)) := by
        intro j
        induction j with
        | zero => intro _; rfl
        | succ j ih => intro hj; rw [← hs j (by omega)]; exact ih (by omega)
      intro u hu
      simp only [List.mem_cons, List.not_mem_nil, or_false] at hu
      rcases hu with rfl | rfl
      · rw [v1 k hk, v3 k hk, hall k (by omega)]
      · rw [v2 k hk, v3 k hk, hall (k + 1) (by omega)]
    · -- the body and the initial value
      have hs : ∀ j < m, dimOf axis (some (xs (j + 1))) = dimOf axis (some (xs 0)) := fun j hj => by
        rw [← v2 j hj, ← v3 j hj]; exact hp j hj _ (by simp) _ (by simp)
      have hacc : dimOf axis (some (xs k)) = dimOf axis (some (xs 0)) := by
        cases k with
        | zero => rfl
        | succ j => exact hs j (by omega)
      intro u hu
      simp only [List.mem_cons, List.not_mem_nil, or_false] at hu
      rcases hu with rfl | rfl
      · rw [v1 k hk, v2 k hk, hs k hk, hacc]
      · rw [v1 k hk, v3 k hk, hacc]
    · -- the initial value and the accumulator
      have hs : ∀ j < m, dimOf axis (some (xs 0)) = dimOf axis (some (xs j)) := fun j hj => by
        rw [← v3 j hj, ← v1 j hj]; exact hp j hj _ (by simp) _ (by simp)
      have hk1 : k + 1 < m := hlast.resolve_right fun h => h ⟨axis, rfl⟩
      intro u hu
      simp only [List.mem_cons, List.not_mem_nil, or_false] at hu
      rcases hu with rfl | rfl
      · rw [v2 k hk, v3 k hk, hs (k + 1) hk1]
      · rw [v2 k hk, v1 k hk, ← hs k hk, hs (k + 1) hk1]
    · -- all three: the result is the body of the last round
      have hs : ∀ j < m, dimOf axis (some (xs (j + 1))) = dimOf axis (some (xs 0)) := fun j hj => by
        rw [← v2 j hj, ← v3 j hj]; exact hp j hj _ (by simp) _ (by simp)
      have he : dimOf axis (some (xs m)) = dimOf axis (some (xs 0)) := by
        have := hs (m - 1) (by have := hr.pos; omega)
        rwa [Nat.sub_add_cancel hr.pos] at this
      have h3 : ∀ u ∈ [(.inr (dim (var a ((typeOf z).getD (.scalar .int))) axis) : SizeNode F), .inr (dim b axis),
          .inr (dim z axis)], sizeVal I sz (roundEnv η c a (xs k) k) u = dimOf axis (some (xs 0)) := fun u hu => by
        rw [← v3 k hk]; exact hp k hk u hu _ (by simp)
      intro u hu
      rw [v4 k hk, he]
      exact h3 u hu
  · cases hl; cases hq

/-! ### A concrete case -/

namespace C12TriggersExample
/-- The accumulator of `addTwice` after each of the two rounds. -/
def sums : Nat → D Int
  | 0 => Toy.ints [10, 20]
  | 1 => Toy.ints [11, 22]
  | _ => Toy.ints [12, 24]

/-- The body of the fold of `addTwice` -/
def addBody : Expr Int :=
  vec 4 (asserting (dim yv 0) [dim (var 3 (.vector (.scalar .int))) 0, dim yv 0])
    (op2 .add (Phi.get (var 3 (.vector (.scalar .int))) (at_ 4)) (Phi.get yv (at_ 4)))

theorem addTwice_rounds : FoldRounds Toy.noExt firstRound 2 3 (int 2) xv addBody 2 sums where
  pos := by decide
  indices _ := rfl
  acc := by decide +kernel
  init := by decide +kernel
  body := by decide +kernel
  result := by decide +kernel

/-- The conclusion about the whole fold: in both rounds the accumulator is as long as the result. -/
example : ∀ k < 2, sizeVal Toy.noExt (fun _ => 2) (roundEnv firstRound 2 3 (sums k) k)
    (.inr (dim (var 3 (.vector (.scalar .int))) 0)) =
    sizeVal Toy.noExt (fun _ => 2) (roundEnv firstRound 2 3 (sums k) k) (.inr (dim addTwice 0)) := by
  intro k hk
  have hl : sizeTriggers (.fold 2 3) [int 2, xv, addBody] = some
      [([.inr (dim (var 3 (.vector (.scalar .int))) 0), .inr (dim addBody 0)], .inr (dim xv 0)),
       ([.inr (dim addBody 0), .inr (dim xv 0)], .inr (dim (var 3 (.vector (.scalar .int))) 0)),
       ([.inr (dim xv 0), .inr (dim (var 3 (.vector (.scalar .int))) 0)], .inr (dim addBody 0)),
       ([.inr (dim (var 3 (.vector (.scalar .int))) 0), .inr (dim addBody 0), .inr (dim xv 0)],
        .inr (dim addTwice 0))] := by rfl
  exact C12_triggers_partial (sz := fun _ => 2) addTwice_tidy addTwice_rounds hl
    (q := ([.inr (dim (var 3 (.vector (.scalar .int))) 0), .inr (dim addBody 0), .inr (dim xv 0)],
      .inr (dim addTwice 0))) (by simp) (by decide +kernel) hk
    (.inr (by rintro ⟨x, h⟩; injection h with h; injection h with h1 h2; injection h2 with h3 _; revert h3; decide +kernel))
    _ (by simp)

end C12TriggersExample
end Verif.Props
