import Verif.Midend.Strict

/-!
Every strict evaluator refines a compositional one, in which definitions that fail matter only if they are used.
So a strict evaluator gives the same value before and after `outline`, if it gives values.
-/

set_option linter.unusedSectionVars false

namespace Verif.Midend
open Term
variable {H V : Type} [Lang H] [DecidableEq H]

/-- The environment without the symbols in `c`. -/
def without (c : Finset Sym) (env : Env V) : Env V := env.override c fun _ => none

/-- Operands outside of the scope of a binder do not see its symbols. -/
def shield (h : H) (fs : List (Env V → Option V)) : List (Env V → Option V) :=
  fs.mapIdx fun k f => if Lang.outside h k then fun env => f (without (Lang.captured h) env) else f

/-- One node of the compositional evaluator. -/
def lazyDen (R : Strict H V) (h : H) (fs : List (Env V → Option V)) (env : Env V) : Option V :=
  match Lang.symbol h with
  | some s => env s
  | none =>
    match Lang.letVar h, fs with
    | some v, [f, g] => g (env.set (.var v) (f (env.set (.var v) none)))
    | _, _ => R.den h (shield h fs) env

theorem set_eq_override (env : Env V) (s : Sym) (x : Option V) : env.set s x = env.override {s} fun _ => x := by
  funext t; simp [Env.set, Env.override]

theorem without_override (c : Finset Sym) (env ext : Env V) : without c (env.override c ext) = without c env := by
  funext t; simp only [without, Env.override]; split <;> rfl

theorem shield_get {h : H} {fs : List (Env V → Option V)} {k : Nat} {f : Env V → Option V}
    (hf : (shield h fs)[k]? = some f) : ∃ f', fs[k]? = some f' ∧
      f = if Lang.outside h k then fun env => f' (without (Lang.captured h) env) else f' := by
  unfold shield at hf
  rw [List.getElem?_mapIdx, Option.map_eq_some_iff] at hf
  obtain ⟨f', h1, h2⟩ := hf
  exact ⟨f', h1, h2.symm⟩

theorem lazy_le (R : Strict H V) (h : H) (fs gs : List (Env V → Option V)) (env env' : Env V)
    (hs : ∀ s, Lang.symbol h = some s → env s = env' s)
    (hc : List.Forall₂ (fun f g => ∀ ext : Env V,
      f (env.override (Lang.captured h) ext) = g (env'.override (Lang.captured h) ext)) fs gs) :
    Le (R.den h (shield h fs) env) (R.den h (shield h gs) env') := by
  refine R.mono h _ _ env env' (by simp [shield, hc.length_eq]) (fun s hss => Le.of_eq (hs s hss)) ?_
  intro k f g hf hg
  obtain ⟨f', hf', rfl⟩ := shield_get hf
  obtain ⟨g', hg', rfl⟩ := shield_get hg
  have he : ∀ ext : Env V, f' (env.override (Lang.captured h) ext) = g' (env'.override (Lang.captured h) ext) := by
    have hk := (List.getElem?_eq_some_iff.1 hf').1
    have := List.forall₂_iff_get.1 hc
    obtain ⟨h1, e1⟩ := List.getElem?_eq_some_iff.1 hf'
    obtain ⟨h2, e2⟩ := List.getElem?_eq_some_iff.1 hg'
    have := this.2 k h1 h2
    simp only [List.get_eq_getElem, e1, e2] at this
    exact this
  constructor
  · intro ho
    simp only [ho, if_true]
    exact Le.of_eq (he _)
  · intro ho ext
    simp only [ho, Bool.false_eq_true, if_false]
    exact Le.of_eq (he ext)

theorem Le.antisymm {α : Type} {a b : Option α} (h1 : Le a b) (h2 : Le b a) : a = b := by
  cases a with
  | some x => exact (h1 x rfl).symm
  | none => cases b with
    | none => rfl
    | some y => cases h2 y rfl

/-- The compositional evaluator of a strict one. -/
def lazySem (R : Strict H V) : Sem H V where
  den := lazyDen R
  den_symbol h fs s env hs := by unfold lazyDen; rw [hs]
  den_let v f g env := by
    unfold lazyDen
    simp only [Lang.symbol_let, Lang.letVar_letHead]
  den_local h fs gs env env' hs hc := by
    unfold lazyDen
    cases hsym : Lang.symbol h with
    | some s => exact hs s hsym
    | none =>
      have hrest : R.den h (shield h fs) env = R.den h (shield h gs) env' := by
        refine Le.antisymm (lazy_le R h fs gs env env' hs hc) (lazy_le R h gs fs env' env (fun s hss => (hs s hss).symm) ?_)
        exact (List.Forall₂.flip hc).imp fun f g h ext => (h ext).symm
      cases hl : Lang.letVar h with
      | none => exact hrest
      | some v =>
        cases Lang.letVar_inj h v hl
        simp only [Lang.captured_let] at hc
        rcases hc with _ | ⟨h1, _ | ⟨h2, _ | ⟨h3, h4⟩⟩⟩ <;> try exact hrest
        dsimp only
        simp only [set_eq_override, h1, h2]

/-- A value of the strict evaluator is the value of the compositional one. -/
theorem strict_lazy (R : Strict H V) (e : Term H) : Scoped e → ∀ env, Le (R.eval e env) ((lazySem R).eval e env) := by
  induction e using ind with
  | step h ts ih =>
    intro hs env
    have ih' : ∀ t ∈ ts, ∀ env, Le (R.eval t env) ((lazySem R).eval t env) := fun t ht => ih t ht (hs.children t ht)
    have hout : ∀ k t, ts[k]? = some t → Lang.outside h k = true →
        (lazySem R).eval t (without (Lang.captured h) env) = (lazySem R).eval t env := fun k t h1 h2 =>
      (lazySem R).eval_agree t fun s hs' => by
        have : s ∉ Lang.captured h := fun hc => Finset.disjoint_left.1 (hs.out k t h1 h2) hc hs'
        simp [without, Env.override, this]
    rw [Strict.eval_node, Sem.eval_node]
    change Le _ (lazyDen R h _ env)
    unfold lazyDen
    cases hsym : Lang.symbol h with
    | some s => exact R.den_symbol_le h _ s env hsym
    | none =>
      have hrest : Le (R.den h (ts.map R.eval) env) (R.den h (shield h (ts.map (lazySem R).eval)) env) := by
        refine R.mono h _ _ env env (by simp [shield]) (fun s hss => by rw [hsym] at hss; cases hss) ?_
        intro k f g hf hg
        obtain ⟨g', hg', rfl⟩ := shield_get hg
        rw [List.getElem?_map, Option.map_eq_some_iff] at hf hg'
        obtain ⟨t, ht, rfl⟩ := hf
        obtain ⟨u, hu, rfl⟩ := hg'
        rw [ht] at hu; cases hu
        have hm := List.mem_of_getElem? ht
        constructor
        · intro ho
          simp only [ho, if_true]
          rw [hout k t ht ho]
          exact ih' t hm env
        · intro ho ext
          simp only [ho, Bool.false_eq_true, if_false]
          exact ih' t hm _
      cases hl : Lang.letVar h with
      | none => exact hrest
      | some v =>
        cases Lang.letVar_inj h v hl
        rcases ts with _ | ⟨a, _ | ⟨b, _ | ⟨c, ts⟩⟩⟩ <;> try exact hrest
        simp only [List.map_cons, List.map_nil]
        rw [R.den_let]
        intro w hw
        obtain ⟨x, hx, hw⟩ := Option.bind_eq_some_iff.1 hw
        have h0 := hout 0 a rfl (by simp [Lang.outside_let])
        rw [Lang.captured_let, without, ← set_eq_override] at h0
        rw [h0, ih' a (by simp) env x hx]
        exact ih' b (by simp) _ w hw

/-- If the source and the outlined program have values, they have the same value. -/
theorem outline_unique (R : Strict H V) {p p' : Term H} (hu : UniqueBinders p) (hns : NoShadow p) (ha : LetArity p)
    (hs : Scoped p) (h : outline p = some p') (env : Env V) {v w : V} (hv : R.eval p env = some v)
    (hw : R.eval p' env = some w) : v = w := by
  have h1 := strict_lazy R p hs env v hv
  have h2 := strict_lazy R p' (outline_scoped hu hns ha hs h) env w hw
  rw [outline_eval (lazySem R) hu hns ha h env, h1] at h2
  exact Option.some.inj h2

/-- Without lets in the source, a value of the outlined program is the value of the source, if the compositional
meaning of the source is its value. -/
theorem outline_lazy (R : Strict H V) {p p' : Term H} (hu : UniqueBinders p) (hns : NoShadow p) (ha : LetArity p)
    (hs : Scoped p) (h : outline p = some p') (env : Env V) {w : V} (hw : R.eval p' env = some w) :
    (lazySem R).eval p env = some w := by
  rw [← outline_eval (lazySem R) hu hns ha h env]
  exact strict_lazy R p' (outline_scoped hu hns ha hs h) env w hw

/-- On programs without lets both evaluators are the same function. -/
theorem lazy_letFree (R : Strict H V) (hsym : ∀ (h : H) (s : Sym) fs env, Lang.symbol h = some s → R.den h fs env = env s)
    (e : Term H) : Scoped e → LetFree e → ∀ env, (lazySem R).eval e env = R.eval e env := by
  induction e using ind with
  | step h ts ih =>
    intro hs hl env
    refine Le.antisymm ?_ (strict_lazy R _ hs env)
    have ih' : ∀ t ∈ ts, ∀ env, Le ((lazySem R).eval t env) (R.eval t env) := fun t ht env =>
      Le.of_eq (ih t ht (hs.children t ht) (LetFree.children hl t ht) env)
    have hout : ∀ k t, ts[k]? = some t → Lang.outside h k = true →
        (lazySem R).eval t (without (Lang.captured h) env) = (lazySem R).eval t env := fun k t h1 h2 =>
      (lazySem R).eval_agree t fun s hs' => by
        have : s ∉ Lang.captured h := fun hc => Finset.disjoint_left.1 (hs.out k t h1 h2) hc hs'
        simp [without, Env.override, this]
    rw [Strict.eval_node, Sem.eval_node]
    change Le (lazyDen R h _ env) _
    unfold lazyDen
    have hlet : Lang.letVar h = none := hl h ts (.refl _)
    rw [hlet]
    cases hss : Lang.symbol h with
    | some s => exact Le.of_eq (hsym h s _ env hss).symm
    | none =>
      refine R.mono h _ _ env env (by simp [shield]) (fun s hs' => by rw [hss] at hs'; cases hs') ?_
      intro k f g hf hg
      obtain ⟨f', hf', rfl⟩ := shield_get hf
      rw [List.getElem?_map, Option.map_eq_some_iff] at hf' hg
      obtain ⟨t, ht, rfl⟩ := hf'
      obtain ⟨u, hu, rfl⟩ := hg
      rw [ht] at hu; cases hu
      have hm := List.mem_of_getElem? ht
      constructor
      · intro ho
        simp only [ho, if_true]
        rw [hout k t ht ho]
        exact ih' t hm env
      · intro ho ext
        simp only [ho, Bool.false_eq_true, if_false]
        exact ih' t hm _

end Verif.Midend
