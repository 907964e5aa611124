import Verif.Frontend.ScriptLemmas
import Verif.Midend.StructsTotal

/-! Programs of the user: what the library builds has the type and the value of the program. -/

set_option linter.unusedSectionVars false

namespace Verif.Frontend
open Verif.Phi Verif.Term Verif.Midend Verif.Codegen Verif.Props
variable {F : Type} [FloatOps F] [DecidableEq F] {I : Ext F} {Γ Γ' : TCtx} {c c' : Nat}

/-! ### Scalars -/

theorem value_scalar {a : ScalarLike F} {env : Env (D F)} {v : PVal F} (h : value I env (.scalar a) = some v) :
    ∃ s, v = .sc s ∧ run I (wrap a) env = some (.sc s) := by
  simp only [value, Option.bind_eq_some_iff] at h
  obtain ⟨d, h1, h2⟩ := h
  cases d <;> simp [view] at h2
  exact ⟨_, h2.symm, h1⟩

theorem value_of_run {e : Expr F} {env : Env (D F)} {s : Scal F} (h : run I e env = some (.sc s)) :
    value I env (scalarObj e) = some (.sc s) := by
  simp [value, scalarObj, wrap, h, view]

theorem Has.scalar {k : Kind} {o : Obj F} (h : Has I Γ c (.sc k) o) : ∃ a, o = .scalar a ∧ Sane I Γ c (wrap a) (.scalar k) := by
  cases o <;> simp only [Has] at h
  exact ⟨_, rfl, h⟩

theorem Has.vec {t : UTy} {o : Obj F} (h : Has I Γ c (.arr t) o) : ∃ e, o = .vec e t.layout ∧ Sane I Γ c e (.vector t.ty) := by
  cases o <;> simp only [Has] at h
  obtain ⟨rfl, h⟩ := h
  exact ⟨_, rfl, h⟩

theorem Has.struct {k : RecKind} {fs : UFields} {o : Obj F} (h : Has I Γ c (.record k fs) o) :
    ∃ os, o = .struct k os ∧ HasF I Γ c fs os := by
  cases o <;> simp only [Has] at h
  obtain ⟨rfl, h⟩ := h
  exact ⟨_, rfl, h⟩

theorem opKind_step {o : ScalarOp} {ks : List Kind} {k : Kind} (h : opKind o ks = some k) :
    typeStep (.op o : Phi.Head F) ((ks.map Ty.scalar).map fun σ => (some σ, ∅)) = some (.scalar k) := by
  unfold opKind at h
  split at h
  · rename_i hl
    rw [typeStep_op, if_pos (by simpa using hl)]
    split at h
    · rename_i hk
      cases h
      exact hk
    · cases h
  · cases h

theorem Sane.op {o : ScalarOp} {ks : List Kind} {k : Kind} {es : List (Expr F)} (hk : opKind o ks = some k)
    (h : List.Forall₂ (fun e k => Sane I Γ c e (.scalar k)) es ks) : Sane I Γ c (node (.op o) es) (.scalar k) := by
  have ht : Phi.typeOf (node (.op o) es) = some (.scalar k) := by
    rw [typeOf_types (σs := ks.map Ty.scalar) (by simp), opKind_step hk]
    rw [List.forall₂_map_right_iff]
    exact h.imp fun _ _ h => h.typed
  have hm : ∀ e ∈ es, ∃ k, Sane I Γ c e (.scalar k) := by
    clear hk ht
    induction h with
    | nil => simp
    | cons h1 _ ih =>
      intro e he
      rcases List.mem_cons.1 he with rfl | he
      · exact ⟨_, h1⟩
      · exact ih e he
  exact .plain rfl ht trivial fun e he => (hm e he).elim fun k hk => ⟨_, hk⟩

theorem Sane.op1 {o : ScalarOp} {k k' : Kind} {e : Expr F} (hk : opKind o [k] = some k') (h : Sane I Γ c e (.scalar k)) :
    Sane I Γ c (op1 o e) (.scalar k') := Sane.op hk (.cons h .nil)

theorem Sane.op2 {o : ScalarOp} {k1 k2 k' : Kind} {a b : Expr F} (hk : opKind o [k1, k2] = some k')
    (ha : Sane I Γ c a (.scalar k1)) (hb : Sane I Γ c b (.scalar k2)) : Sane I Γ c (op2 o a b) (.scalar k') :=
  Sane.op hk (.cons ha (.cons hb .nil))

theorem run_unary {o : ScalarOp} {e : Expr F} {env : Env (D F)} {x s : Scal F} (h : run I e env = some (.sc x))
    (ho : applyOp o [x] = some s) : run I (op1 o e) env = some (.sc s) := by
  rw [op1, run_node]
  simp [runDen, opOf, Phi.mapOpt, h, Val.asScal, ho]

theorem run_binary {o : ScalarOp} {a b : Expr F} {env : Env (D F)} {x y s : Scal F} (ha : run I a env = some (.sc x))
    (hb : run I b env = some (.sc y)) (ho : applyOp o [x, y] = some s) : run I (op2 o a b) env = some (.sc s) := by
  rw [op2, run_node]
  simp [runDen, opOf, Phi.mapOpt, ha, hb, Val.asScal, ho]

theorem Sane.method {o : PyOp} {k1 k2 k' : Kind} {a : Expr F} {b : ScalarLike F} (hk : pyKind o k1 k2 = some k')
    (ha : Sane I Γ c a (.scalar k1)) (hb : Sane I Γ c (wrap b) (.scalar k2)) : Sane I Γ c (method o a b) (.scalar k') := by
  cases o <;> simp only [pyKind] at hk
  case truediv =>
    obtain ⟨r, h1, h2⟩ := Option.bind_eq_some_iff.1 hk
    exact Sane.op2 h2 ha (Sane.op1 h1 hb)
  all_goals first
    | exact Sane.op2 hk ha hb
    | exact Sane.op2 hk hb ha

theorem run_method {o : PyOp} {a : Expr F} {b : ScalarLike F} {env : Env (D F)} {x y s : Scal F} (ha : run I a env = some (.sc x))
    (hb : run I (wrap b) env = some (.sc y)) (ho : applyPy o x y = some s) : run I (method o a b) env = some (.sc s) := by
  cases o <;> simp only [applyPy] at ho
  case truediv =>
    obtain ⟨r, h1, h2⟩ := Option.bind_eq_some_iff.1 ho
    exact run_binary ha (run_unary hb h1) h2
  all_goals first
    | exact run_binary ha hb ho
    | exact run_binary hb ha ho

theorem toScal_eq {v : PVal F} {s : Scal F} (h : toScal v = some s) : v = .sc s := by
  cases v <;> simp [toScal] at h; rw [h]
theorem toInt_eq {v : PVal F} {n : Int} (h : toInt v = some n) : v = .sc (.i n) := by
  cases v with
  | sc s => cases s <;> simp [toInt] at h; rw [h]
  | _ => simp [toInt] at h
theorem toList_eq {v : PVal F} {l : List (PVal F)} (h : toList v = some l) : v = .arr l := by
  cases v <;> simp [toList] at h; rw [h]

theorem extent_dim {k : Nat} : ∀ {l : Layout} {d : D F} {v : PVal F} {n : Nat}, view l d = some v → extent k v = some n →
    Val.dim k d = some n := by
  induction k with
  | zero =>
    intro l d v n hv hn
    cases v <;> simp only [extent, reduceCtorEq, Option.some.injEq] at hn
    rename_i ws
    cases l <;> cases d <;> simp only [view, Option.map_eq_some_iff, reduceCtorEq, Option.some.injEq, and_false, exists_false,
      PVal.arr.injEq] at hv
    obtain ⟨_, h1, rfl⟩ := hv
    rw [Val.dim, ← hn, mapOpt_length h1]
  | succ k ih =>
    intro l d v n hv hn
    cases v with
    | arr ws =>
      cases ws with
      | nil => simp [extent] at hn
      | cons w ws =>
        simp only [extent] at hn
        cases l <;> cases d <;> simp only [view, Option.map_eq_some_iff, reduceCtorEq, Option.some.injEq, and_false, exists_false,
          PVal.arr.injEq] at hv
        rename_i sub vs
        obtain ⟨_, h1, rfl⟩ := hv
        cases vs with
        | nil => simp [Phi.mapOpt] at h1
        | cons u us =>
          simp only [Phi.mapOpt, Option.bind_eq_some_iff, Option.some.injEq, List.cons.injEq] at h1
          obtain ⟨w', h2, _, _, rfl, _⟩ := h1
          exact ih h2 hn
    | _ => simp [extent] at hn

/-! ### Locals -/

theorem Has.locals_mono {ts : List UTy} {os : List (Obj F)} (hc : c ≤ c') (hΓ : Extends c Γ Γ') (h : List.Forall₂ (Has I Γ c) ts os) :
    List.Forall₂ (Has I Γ' c') ts os := h.imp fun _ _ h => h.mono hc hΓ

theorem values_congr {ts : List UTy} {os : List (Obj F)} (h : List.Forall₂ (Has I Γ c) ts os) {env env' : Env (D F)}
    (he : ∀ s, Γ s ≠ none → env' s = env s) : Phi.mapOpt (value I env') os = Phi.mapOpt (value I env) os := by
  induction h with
  | nil => rfl
  | cons h1 _ ih => simp only [Phi.mapOpt, h1.value_congr he, ih]

theorem Extends.set {s : Sym} {τ : Option Ty} (h : Extends c Γ Γ') (hs : c ≤ symNum s) : Extends c Γ (Γ'.set s τ) :=
  ⟨h.1, fun s' hs' => by rw [TCtx.set, if_neg (by rintro rfl; omega)]; exact h.2 s' hs'⟩

theorem Sane.store {s : Sym} {τ : Ty} (h : Γ s = some τ) : Sane I Γ c (node (.store s τ) []) τ := by
  have ht : Phi.typeOf (node (.store s τ) [] : Expr F) = some τ := by rw [typeOf_node]; rfl
  exact .plain rfl ht h (by simp)

theorem find_has {n : String} : ∀ {fs : UFields} {os : Fields F} {t : UTy}, HasF I Γ c fs os → fs.find n = some t →
    ∃ o, os.lookup n = some o ∧ Has I Γ c t o
  | .nil, _, _, _, h => by simp [UFields.find] at h
  | .cons m s rest, .cons m' o os, t, hf, h => by
    simp only [HasF] at hf
    obtain ⟨rfl, h1, h2⟩ := hf
    simp only [UFields.find] at h
    rw [Fields.lookup]
    split at h
    · rename_i hm
      cases h
      exact ⟨o, by simp [hm], h1⟩
    · rename_i hm
      obtain ⟨o', h3, h4⟩ := find_has h2 h
      exact ⟨o', by simp [hm, h3], h4⟩
  | .cons _ _ _, .nil, _, hf, _ => by simp only [HasF] at hf

theorem nth_has {i : Nat} : ∀ {fs : UFields} {os : Fields F} {t : UTy}, HasF I Γ c fs os → fs.nth i = some t →
    ∃ o, os.toList[i]? = some o ∧ Has I Γ c t o := by
  induction i with
  | zero =>
    intro fs os t hf h
    cases fs <;> cases os <;> simp only [HasF, UFields.nth, reduceCtorEq, Option.some.injEq] at hf h
    exact ⟨_, by simp [Fields.toList], h ▸ hf.2.1⟩
  | succ i ih =>
    intro fs os t hf h
    cases fs <;> cases os <;> simp only [HasF, UFields.nth, reduceCtorEq] at hf h
    obtain ⟨o, h1, h2⟩ := ih hf.2.2 h
    exact ⟨o, by simpa [Fields.toList] using h1, h2⟩

theorem find_ok {n : String} : ∀ {fs : UFields} {t : UTy}, fs.layout.ok = true → fs.find n = some t → t.layout.ok = true
  | .nil, _, _, h => by simp [UFields.find] at h
  | .cons m s rest, t, hf, h => by
    simp only [UFields.layout, LFields.ok, Bool.and_eq_true] at hf
    simp only [UFields.find] at h
    split at h
    · cases h; exact hf.1
    · exact find_ok hf.2 h

theorem nth_ok {i : Nat} : ∀ {fs : UFields} {t : UTy}, fs.layout.ok = true → fs.nth i = some t → t.layout.ok = true := by
  induction i with
  | zero =>
    intro fs t hf h
    cases fs <;> simp only [UFields.nth, reduceCtorEq, Option.some.injEq] at h
    simp only [UFields.layout, LFields.ok, Bool.and_eq_true] at hf
    exact h ▸ hf.1
  | succ i ih =>
    intro fs t hf h
    cases fs <;> simp only [UFields.nth, reduceCtorEq] at h
    simp only [UFields.layout, LFields.ok, Bool.and_eq_true] at hf
    exact ih hf.2 h

theorem find_value {n : String} {env : Env (D F)} : ∀ {os : Fields F} {o : Obj F} {l : List (String × PVal F)} {v : PVal F},
    os.lookup n = some o → valueFields I env os = some l → (l.find? fun p => p.1 = n).map Prod.snd = some v →
    value I env o = some v
  | .nil, _, _, _, h, _, _ => by simp [Fields.lookup] at h
  | .cons m o' os, o, l, v, h, hl, hv => by
    simp only [valueFields, Option.bind_eq_some_iff, Option.map_eq_some_iff] at hl
    obtain ⟨x, h1, xs, h2, rfl⟩ := hl
    rw [Fields.lookup] at h
    by_cases hm : m = n
    · simp only [hm, if_true, Option.some.injEq] at h
      subst h
      simp only [List.find?_cons, hm, decide_true, Option.map_some, Option.some.injEq] at hv
      rw [← hv, h1]
    · rw [if_neg hm] at h
      simp only [List.find?_cons, hm, decide_false] at hv
      exact find_value h h2 hv

theorem nth_value {env : Env (D F)} : ∀ {i : Nat} {os : Fields F} {o : Obj F} {l : List (String × PVal F)} {v : PVal F},
    os.toList[i]? = some o → valueFields I env os = some l → l[i]?.map Prod.snd = some v → value I env o = some v
  | i, .nil, _, _, _, h, _, _ => by simp [Fields.toList] at h
  | 0, .cons m o' os, o, l, v, h, hl, hv => by
    simp only [valueFields, Option.bind_eq_some_iff, Option.map_eq_some_iff] at hl
    obtain ⟨x, h1, xs, h2, rfl⟩ := hl
    simp only [Fields.toList, List.getElem?_cons_zero, Option.some.injEq, Option.map_some] at h hv
    rw [← h, ← hv, h1]
  | i + 1, .cons m o' os, o, l, v, h, hl, hv => by
    simp only [valueFields, Option.bind_eq_some_iff, Option.map_eq_some_iff] at hl
    obtain ⟨x, h1, xs, h2, rfl⟩ := hl
    exact nth_value (i := i) (by simpa [Fields.toList] using h) h2 (by simpa using hv)

end Verif.Frontend
