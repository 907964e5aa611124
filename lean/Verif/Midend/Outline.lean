import Verif.Midend.InlineMemo

/-! Model of `outline` (`ein/midend/lining.py:113-143`). -/

set_option linter.unusedSectionVars false

namespace Verif.Midend
open Term
variable {H V : Type} [Lang H] [DecidableEq H]

/-- All occurrences of sub-terms in the order `check.visit` meets them (`lining.py:119-124`). -/
def occurrences : Term H → List (Term H) :=
  para (fun h fs => node h (fs.map Prod.fst) :: (fs.map Prod.snd).flatten)

/-- The assertion in `visit` (`lining.py:120`): only atoms occur more than once. -/
def isTree (t : Term H) : Bool :=
  decide ((occurrences t).filter (fun u => !Lang.isAtom u.head)).Nodup

/-- `check(prog, tree)` (`lining.py:116-130`): `none` when an assertion fails. -/
def check (free : Finset Sym) (tree : Bool) (prog : Term H) : Option Unit :=
  if (tree → isTree prog = true) ∧ free = fv prog then some () else none

/-- All symbols of a program. -/
def symbols (t : Term H) : Finset Sym := binders t ∪ fv t

/-- `_apply_insertions(program, _bind_common_subexpressions(program))` (`lining.py:136`) -/
def cse (p : Term H) : Option (Term H) :=
  applyInsertions (number (freshBase (symbols p)) (csePairs p)) p

/-- `_apply_insertions(program, _loop_invariant_code_motion(program))` (`lining.py:139`) -/
def licm (p : Term H) : Option (Term H) :=
  applyInsertions (number (freshBase (symbols p)) (licmPairs p)) p

/-- `outline(program)` (`lining.py:113-143`). -/
def outline (p : Term H) : Option (Term H) := do
  let p0 := inlineMemo false p
  check (fv p) false p0
  let p1 ← cse p0
  check (fv p) true p1
  let p2 ← licm p1
  check (fv p) true p2
  let p3 := inlineMemo true p2
  check (fv p) true p3
  return p3

/-! ### One insertion pass -/

theorem occurs_scope_of_insOk {ins : Term H → List (Nat × Term H)} (hi : InsOk ins) {p p' : Term H}
    (S : Sem H V) (hfr : InsFresh ins (symbols p)) (hns : NoShadow p)
    (hcl : Disjoint (binders p) (fv p)) (h : applyInsertions ins p = some p') (env : Env V) :
    S.eval p' env = S.eval p env := by
  refine applyGo_eval S hi p.size [] p p' (fv p) env env hfr hns hcl (Finset.Subset.refl _) ?_ ?_ ?_ h
  · intro b v hm; cases hm
  · intro b v hm; cases hm
  · intro s _; rfl

theorem applyInsertions_out {ins : Term H → List (Nat × Term H)} (hi : InsOk ins) {p p' : Term H}
    (hfr : InsFresh ins (symbols p)) (hns : NoShadow p)
    (h : applyInsertions ins p = some p') :
    fv p' ⊆ fv p ∧ (∀ s ∈ binders p', s ∈ binders p ∨ ∃ st v b, (v, b) ∈ ins st ∧ s = .var v) ∧
      NoShadow p' := by
  have ho := applyGo_out hi p.size [] p p' hfr hns (by intro b v hm; cases hm) h
  refine ⟨?_, ?_, ho.noShadow⟩
  · intro s hs
    rcases Finset.mem_union.1 (ho.fv hs) with h | h
    · exact h
    · simp [bvars] at h
  · intro s hs
    rcases ho.binders s hs with h | ⟨st, v, b, hm, _, rfl⟩
    · exact Or.inl h
    · exact Or.inr ⟨st, v, b, hm, rfl⟩

theorem applyInsertions_closed {ins : Term H → List (Nat × Term H)} (hi : InsOk ins) {p p' : Term H}
    (hfr : InsFresh ins (symbols p)) (hns : NoShadow p) (hcl : Disjoint (binders p) (fv p))
    (h : applyInsertions ins p = some p') : Disjoint (binders p') (fv p') := by
  obtain ⟨h1, h2, _⟩ := applyInsertions_out hi hfr hns h
  rw [Finset.disjoint_left]
  intro s hb hf
  rcases h2 s hb with h | ⟨st, v, b, hm, rfl⟩
  · exact Finset.disjoint_left.1 hcl h (h1 hf)
  · exact hfr st v b hm (Finset.mem_union_right _ (h1 hf))

theorem cse_insOk {p : Term H} (hu : UniqueBinders p) :
    InsOk (number (freshBase (symbols p)) (csePairs p)) := number_insOk _ _ (csePairs_ok hu)

theorem licm_insOk (p : Term H) :
    InsOk (number (freshBase (symbols p)) (licmPairs p)) := number_insOk _ _ (licmPairs_ok p)

/-- Sharing of repeated sub-expressions. -/
theorem cse_eval (S : Sem H V) {p p' : Term H} (hu : UniqueBinders p) (hns : NoShadow p)
    (h : cse p = some p') (env : Env V) : S.eval p' env = S.eval p env :=
  occurs_scope_of_insOk (cse_insOk hu) S (number_fresh (le_refl _)) hns hu.closed h env

/-- Loop-invariant code motion. -/
theorem licm_eval (S : Sem H V) {p p' : Term H} (hns : NoShadow p)
    (hcl : Disjoint (binders p) (fv p)) (h : licm p = some p') (env : Env V) :
    S.eval p' env = S.eval p env :=
  occurs_scope_of_insOk (licm_insOk p) S (number_fresh (le_refl _)) hns hcl h env

theorem cse_isSome {p : Term H} (hu : UniqueBinders p) : (cse p).isSome :=
  applyGo_isSome (cse_insOk hu) _ _ _ (le_refl _)

theorem licm_isSome (p : Term H) : (licm p).isSome :=
  applyGo_isSome (licm_insOk p) _ _ _ (le_refl _)

theorem inline_eval (S : Sem H V) (r : Bool) {p : Term H} (hns : NoShadow p)
    (hcl : Disjoint (binders p) (fv p)) (env : Env V) :
    S.eval (inline r p) env = S.eval p env := by
  unfold inline
  rw [inlineGo_eval S _ p hns (fv p) [] hcl (Finset.Subset.refl _) (by simp [boundKeys])
    (by simp [rangeFv])]
  congr 1
  funext s
  cases s <;> simp [boundEnv, lookup]

theorem inline_letFree {p : Term H} (ha : LetArity p) : LetFree (inline false p) := by
  have : inline false p = inlineGo (fun _ => true) [] p := by
    unfold inline
    congr 1
  rw [this]
  exact inlineGo_letFree p ha [] (by simp)

end Verif.Midend
