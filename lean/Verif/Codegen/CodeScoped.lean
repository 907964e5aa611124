import Verif.Codegen.MemoBuilt
import Verif.Codegen.Typed
import Verif.Yarr.CancelScoped

/-! Compiled code binds every symbol once and uses it in its scope only. -/

set_option linter.unusedSectionVars false

namespace Verif.Codegen
open Verif.Phi Verif.Term Verif.Yarr Verif.Arr Verif.Midend
variable {F : Type} [FloatOps F] [DecidableEq F] {o : Opts F} {N : Expr F → Prop}

/-- The code of a whole program, compiled with the table and without it. -/
theorem code_scoped {p : Expr F} (ho : Once o N (fv p)) (hk : Known N p) (hs : Scoped p) {n m : Nat} {code : YExpr F}
    (hc : compileProgram o n p = some code) (hm : compileProgramMemo (fun _ => o) m p = some code) :
    BoundOnce code ∧ ScopedIn (fv p) code ∧ (∃ τ, Yarr.typeOf code = some τ) ∧
      ((∀ B, N B → Phi.Head.letVar B.head = none) → (∀ x y ts, N (node (.reduce x y) ts) → x ≠ y) → LetFree code) := by
  obtain ⟨x, hx, hn⟩ := Option.bind_eq_some_iff.1 hc
  have hcx : code = x.expr := by
    unfold Axial.normal at hn
    split at hn
    · exact (Option.some.inj hn).symm
    · cases hn
  subst hcx
  have hin : ScopedIn (fv p) x.expr := compile_scopedIn ho n (X := fv p)
    ⟨hk, hs, fun u hu => hu, fun B hB _ => Finset.disjoint_left.2 fun s h1 h2 => ho.fresh B hB s h1 h2⟩
    (fun _ _ h => by cases h) hx
  obtain ⟨⟨x', r⟩, hx', hn'⟩ := Option.bind_eq_some_iff.1 hm
  have hcx' : x.expr = x'.expr := by
    unfold Axial.normal at hn'
    split at hn'
    · exact (Option.some.inj hn').symm
    · cases hn'
  obtain ⟨hT, -, hF, -⟩ := compileMemo_fills ho m [] 0 _ _ p x' r hx' hk hs
    ⟨fun _ _ _ _ h => (by cases h), fun _ _ h => (by cases h), fun _ _ h => (by cases h)⟩ (fun _ _ h => (by cases h))
  rw [← hcx'] at hF
  refine ⟨⟨fun h ts k us s h1 h2 h3 h4 => hF.unique ho hT h1 h2 h3 h4, fun h ts s h1 h2 h3 => ?_⟩, hin,
    compile_typed _ _ _ _ hx, fun hl hxy h ts h1 => ?_⟩
  · obtain ⟨⟨g, l⟩, y, h4, -, h5, h6⟩ := hF h ts h1 (Finset.ne_empty_of_mem h2)
    rw [h5] at h2
    exact ho.fresh _ ((hT.known _ _ h4).self h6) s (captured_subset_caps _ _ _ h2) (hin.sub h3)
  · cases h with
    | letv v =>
      obtain ⟨⟨g, l⟩, y, h4, -, h5, h6⟩ := hF _ _ h1 (by simp [Yarr.Head.captured])
      have hN := (hT.known _ _ h4).self h6
      have hg := hl _ hN
      cases g <;> simp [Yarr.Head.captured, Phi.Head.captured, head, wt] at h5 h6
      · cases hg
      · have := ho.counter _ _ _ hN
        have h7 := congrArg Finset.card h5
        rw [Finset.card_singleton, Finset.card_pair (by simpa using this)] at h7
        cases h7
      · have := hxy _ _ _ hN
        have h7 := congrArg Finset.card h5
        rw [Finset.card_singleton, Finset.card_pair (by simpa using this)] at h7
        cases h7
    | _ => rfl

end Verif.Codegen
