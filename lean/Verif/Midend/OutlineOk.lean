import Verif.Midend.LicmCoherent

/-! The whole of `outline` (`ein/midend/lining.py:113-143`). -/

set_option linter.unusedSectionVars false

namespace Verif.Midend
open Term
variable {H V : Type} [Lang H] [DecidableEq H]

/-- Facts about each stage of `outline`. -/
structure StageOk (p q : Term H) : Prop where
  unique : UniqueBinders q
  noShadow : NoShadow q
  fv : Term.fv q ⊆ Term.fv p
  scope : Scoped p → Scoped q

theorem cse_ok {p q : Term H} (hu : UniqueBinders p) (hns : NoShadow p) (h : cse p = some q) :
    StageOk p q := by
  have hi := cse_insOk hu
  have hfr : InsFresh (number (freshBase (symbols p)) (csePairs p)) (symbols p) :=
    number_fresh (le_refl _)
  obtain ⟨h1, _, h3⟩ := applyInsertions_out hi hfr hns h
  exact ⟨applyInsertions_unique hi (cse_coherent _ p) hfr hns hu
    (applyInsertions_closed hi hfr hns hu.closed h) h3 h, h3, h1,
    fun hs => applyInsertions_scoped hi hfr hns hs h3 h⟩

theorem licm_ok {p q : Term H} (hu : UniqueBinders p) (hns : NoShadow p) (ht : Tree p)
    (h : licm p = some q) : StageOk p q := by
  have hi := licm_insOk p
  have hfr : InsFresh (number (freshBase (symbols p)) (licmPairs p)) (symbols p) :=
    number_fresh (le_refl _)
  obtain ⟨h1, _, h3⟩ := applyInsertions_out hi hfr hns h
  exact ⟨applyInsertions_unique hi (licm_coherent _ ht hns) hfr hns hu
    (applyInsertions_closed hi hfr hns hu.closed h) h3 h, h3, h1,
    fun hs => applyInsertions_scoped hi hfr hns hs h3 h⟩

theorem inline_scoped (r : Bool) {p : Term H} (hns : NoShadow p)
    (hcl : Disjoint (binders p) (fv p)) (hs : Scoped p) : Scoped (inline r p) :=
  inlineGo_scoped _ p hns hs (fv p) [] hcl (Finset.Subset.refl _) (by simp [rangeFv]) (by simp)

theorem check_spec {free : Finset Sym} {tree : Bool} {q : Term H} {u : Unit}
    (h : check free tree q = some u) : (tree = true → Tree q) ∧ free = fv q := by
  unfold check at h
  split_ifs at h with hc
  exact ⟨fun ht => tree_of_isTree (hc.1 ht), hc.2⟩

/-- `outline` in stages. -/
theorem outline_spec {p p' : Term H} (hu : UniqueBinders p) (hns : NoShadow p) (ha : LetArity p)
    (h : outline p = some p') :
    ∃ p1 p2, cse (inline false p) = some p1 ∧ licm p1 = some p2 ∧ p' = inline true p2 ∧
      UniqueBinders (inline false p) ∧ NoShadow (inline false p) ∧
      StageOk (inline false p) p1 ∧ StageOk p1 p2 ∧ UniqueBinders p' ∧ fv p' = fv p ∧ Tree p' := by
  unfold outline at h
  simp only [Option.bind_eq_bind, Option.bind_eq_some_iff, Option.pure_def] at h
  obtain ⟨_, _, p1, hcse, _, hc1, p2, hlicm, _, _, _, hc3, he⟩ := h
  rw [inlineMemo_eq hu hns] at hcse
  have hu0 := inline_uniqueBinders hu hns false
  have hns0 : NoShadow (inline false p) := hu0.noShadow (inline_letFree ha)
  have s1 := cse_ok hu0 hns0 hcse
  have s2 := licm_ok s1.unique s1.noShadow ((check_spec hc1).1 rfl) hlicm
  rw [inlineMemo_eq s2.unique s2.noShadow] at hc3 he
  cases he
  exact ⟨p1, p2, hcse, hlicm, rfl, hu0, hns0, s1, s2,
    inline_uniqueBinders s2.unique s2.noShadow true, (check_spec hc3).2.symm, (check_spec hc3).1 rfl⟩

theorem outline_eval (S : Sem H V) {p p' : Term H} (hu : UniqueBinders p) (hns : NoShadow p)
    (ha : LetArity p) (h : outline p = some p') (env : Env V) : S.eval p' env = S.eval p env := by
  obtain ⟨p1, p2, h1, h2, rfl, hu0, hns0, s1, s2, _, _, _⟩ := outline_spec hu hns ha h
  rw [inline_eval S true s2.noShadow s2.unique.closed, licm_eval S s1.noShadow s1.unique.closed h2,
    cse_eval S hu0 hns0 h1, inline_eval S false hns hu.closed]

theorem outline_scoped {p p' : Term H} (hu : UniqueBinders p) (hns : NoShadow p)
    (ha : LetArity p) (hs : Scoped p) (h : outline p = some p') : Scoped p' := by
  obtain ⟨p1, p2, h1, h2, rfl, hu0, hns0, s1, s2, _, _, _⟩ := outline_spec hu hns ha h
  exact inline_scoped true s2.noShadow s2.unique.closed
    (s2.scope (s1.scope (inline_scoped false hns hu.closed hs)))

theorem LetFree.letArity {p : Term H} (h : LetFree p) : LetArity p := by
  intro hd ts ho hs
  rw [h hd ts ho] at hs; cases hs

end Verif.Midend
