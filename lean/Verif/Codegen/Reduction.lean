import Verif.Codegen.MeansOps
import Verif.Midend.SizeMoment
import Verif.Exact
import Verif.Backend.Dict

/-!
Folds that are compiled to one reduction of an array (`ein/codegen/phi_to_yarr.py:347-428`).
-/

set_option linter.unusedSectionVars false

namespace Verif.Codegen
open Verif.Phi Verif.Term Verif.Yarr Verif.Arr Verif.Midend
variable {F : Type}

/-- The kind of reduction by an operator (`phi_to_yarr.py:384-388`). -/
def redKind : ScalarOp → Option RedKind
  | .add => some .add
  | .min => some .minimum
  | .max => some .maximum
  | _ => none

/-- Is the expression this variable? (`phi_to_yarr.py:392`) -/
def isVar (a : Nat) : Expr F → Bool
  | .node (.store (.var v) _) [] => decide (v = a)
  | _ => false

/-- `match_reduction_by_body` (`phi_to_yarr.py:381-396`) -/
def matchReductionByBody : Expr F → Nat → Option (Expr F × RedKind)
  | .node (.op f) [x, y], acc => (redKind f).bind fun k =>
    if isVar acc x then some (y, k) else if isVar acc y then some (x, k) else none
  | _, _ => none

/-- Does the read count as one along the new axis? (`phi_to_yarr.py:364-370`) `equiv` is `size_class.equiv`. -/
def axisRead (equiv : Expr F → Expr F → Bool) (c : Nat) (size target item : Expr F) : Bool :=
  decide (Sym.var c ∈ fv item) && decide (freeIndices item = ∅) && equiv size (dim target 0)

/-- `would_be_memory_considerate_axis` (`phi_to_yarr.py:347-378`); the pair is the expression and the answer
for it. -/
def considerate (equiv : Expr F → Expr F → Bool) (c : Nat) (size : Expr F) (e : Expr F) : Bool :=
  para (fun h (ts : List (Expr F × Bool)) =>
    if Sym.var c ∉ fv (node h (ts.map Prod.fst)) then true
    else decide ((ts.countP fun p => decide (Sym.var c ∈ fv p.1)) ≤ 1) &&
      match h, ts with
      | .get, [t, i] => if axisRead equiv c size t.1 i.1 then t.2 else t.2 && i.2
      | .store s _, _ => decide (s ≠ .var c)
      | _, ts => ts.all Prod.snd) e

/-- The comprehension of the elements (`phi_to_yarr.py:415-417`); `i` is the new index. -/
def elemsOf [DecidableEq F] (c : Nat) (n elem : Expr F) (i : Nat) : Expr F :=
  vec i n (substitute [(Sym.var c, at_ i)] elem)

/-- `match_reduction` (`phi_to_yarr.py:399-428`). The outer `none` means that the fold has not the right
form. `i` is the new index; `go` the compiler; that the size classes learn about the comprehension
(`418-421`) is left out, their answers are given. -/
def matchReduction [DecidableEq F] (equiv : Expr F → Expr F → Bool) (go : Expr F → Option (Axial F)) (i : Nat)
    (c a : Nat) (n z b : Expr F) : Option (Option (Axial F)) :=
  if Phi.typeOf z = some (.scalar .float) ∧ freeIndices z = ∅ then
    match matchReductionByBody b a with
    | some (elem, k) =>
      if considerate equiv c n elem then
        some ((go (elemsOf c n elem i)).bind fun elems => (go z).bind fun init => reductionCode k elems init)
      else none
    | none => none
  else none

/-! ### The meaning of such a fold -/

/-- Laws that hold for exact arithmetic. -/
class AssocFloat (F : Type) [FloatOps F] : Prop where
  add_assoc : ∀ x y z : F, FloatOps.add (FloatOps.add x y) z = FloatOps.add x (FloatOps.add y z)
  add_comm : ∀ x y : F, FloatOps.add x y = FloatOps.add y x
  add_zero : ∀ x : F, FloatOps.add x (FloatOps.ofInt 0) = x
  min_assoc : ∀ x y z : F, FloatOps.min (FloatOps.min x y) z = FloatOps.min x (FloatOps.min y z)
  min_comm : ∀ x y : F, FloatOps.min x y = FloatOps.min y x
  max_assoc : ∀ x y z : F, FloatOps.max (FloatOps.max x y) z = FloatOps.max x (FloatOps.max y z)
  max_comm : ∀ x y : F, FloatOps.max x y = FloatOps.max y x

instance (priority := low) {F : Type} [Field F] [LinearOrder F] [FloatOps F] [ExactFloat F] : AssocFloat F where
  add_assoc x y z := by simp only [ExactFloat.add, add_assoc]
  add_comm x y := by simp only [ExactFloat.add, add_comm]
  add_zero x := by simp [ExactFloat.add, ExactFloat.ofInt]
  min_assoc x y z := by simp only [ExactFloat.min, min_assoc]
  min_comm x y := by simp only [ExactFloat.min, min_comm]
  max_assoc x y z := by simp only [ExactFloat.max, max_assoc]
  max_comm x y := by simp only [ExactFloat.max, max_comm]

section
variable [FloatOps F] [AssocFloat F]

theorem red_comm (k : RedKind) (x y : Scal F) : applyOp (redOp k) [x, y] = applyOp (redOp k) [y, x] := by
  cases k <;> cases x <;> cases y <;> first
    | rfl
    | exact congrArg (fun t => some (Scal.f t)) (AssocFloat.add_comm _ _)
    | exact congrArg (fun t => some (Scal.f t)) (AssocFloat.min_comm _ _)
    | exact congrArg (fun t => some (Scal.f t)) (AssocFloat.max_comm _ _)
    | exact congrArg (fun t => some (Scal.i t)) (Int.add_comm _ _)
    | exact congrArg (fun t => some (Scal.i t)) (min_comm _ _)
    | exact congrArg (fun t => some (Scal.i t)) (max_comm _ _)

theorem red_assoc (k : RedKind) (x y z : Scal F) :
    ((applyOp (redOp k) [x, y]).bind fun s => applyOp (redOp k) [s, z]) =
      (applyOp (redOp k) [y, z]).bind fun s => applyOp (redOp k) [x, s] := by
  cases k <;> cases x <;> cases y <;> cases z <;> first
    | rfl
    | exact congrArg (fun t => some (Scal.f t)) (AssocFloat.add_assoc _ _ _)
    | exact congrArg (fun t => some (Scal.f t)) (AssocFloat.min_assoc _ _ _)
    | exact congrArg (fun t => some (Scal.f t)) (AssocFloat.max_assoc _ _ _)
    | exact congrArg (fun t => some (Scal.i t)) (Int.add_assoc _ _ _)
    | exact congrArg (fun t => some (Scal.i t)) (min_assoc _ _ _)
    | exact congrArg (fun t => some (Scal.i t)) (max_assoc _ _ _)

theorem loopOpt_cons {α β : Type} (f : β → α → Option β) (b : β) (x : α) (l : List α) :
    loopOpt f b (x :: l) = (f b x).bind fun b' => loopOpt f b' l := rfl

/-- Combining from the left is combining the rest first. -/
theorem loopOpt_red (k : RedKind) (x y : Scal F) (l : List (Scal F)) :
    loopOpt (fun a b => applyOp (redOp k) [a, b]) x (y :: l) =
      (loopOpt (fun a b => applyOp (redOp k) [a, b]) y l).bind fun s => applyOp (redOp k) [x, s] := by
  induction l generalizing x y with
  | nil => rw [loopOpt_cons]; simp [loopOpt]
  | cons z l ih =>
    rw [loopOpt_cons, loopOpt_cons]
    have h1 : ((applyOp (redOp k) [x, y]).bind fun b' =>
        loopOpt (fun a b => applyOp (redOp k) [a, b]) b' (z :: l)) =
      ((applyOp (redOp k) [x, y]).bind fun s => applyOp (redOp k) [s, z]).bind fun b' =>
        loopOpt (fun a b => applyOp (redOp k) [a, b]) b' l := by
      rw [Option.bind_assoc]; rfl
    rw [h1, red_assoc, Option.bind_assoc, Option.bind_assoc]
    refine Option.bind_congr fun s _ => ?_
    exact ih x s

theorem reduceScal_cons (k : RedKind) (x : Scal F) (l : List (Scal F)) :
    reduceScal k (x :: l) = loopOpt (fun a b => applyOp (redOp k) [a, b]) x l := by cases k <;> rfl

/-- One bulk reduction: combine the elements among themselves, then with the initial value. -/
def bulkOf (k : RedKind) (init elems : Option (D F)) : Option (D F) :=
  (init.bind Val.asScal).bind fun s => (elems.bind Val.asVec).bind fun vs =>
  ((mapOpt Val.asScal vs).bind (reduceScal k)).bind fun t => (applyOp (redOp k) [s, t]).map .sc

theorem loopOpt_scalars (o : ScalarOp) (g : Nat → Option (D F)) (s : Scal F) (l : List Nat) :
    loopOpt (fun acc j => opOf o [some acc, g j]) (.sc s) l =
      ((mapOpt (fun j => (g j).bind Val.asScal) l).bind fun ss =>
        loopOpt (fun a b => applyOp o [a, b]) s ss).map .sc := by
  induction l generalizing s with
  | nil => rfl
  | cons j l ih =>
    rw [loopOpt_cons]
    have h1 : opOf o [some (.sc s), g j] =
        ((g j).bind Val.asScal).bind fun t => (applyOp o [s, t]).map .sc := by
      unfold opOf
      cases h : (g j).bind Val.asScal with
      | none => simp [mapOpt, h, Val.asScal]
      | some t => simp only [mapOpt, h, Val.asScal, Option.bind_some, Option.map_eq_bind]; rfl
    rw [h1]
    cases h : (g j).bind Val.asScal with
    | none => simp [mapOpt, h]
    | some t =>
      simp only [mapOpt, h, Option.bind_some, Option.bind_map, Function.comp_def]
      cases hl : mapOpt (fun j => (g j).bind Val.asScal) l with
      | none => simp [ih, hl]
      | some ss =>
        simp only [Option.bind_some, loopOpt_cons, ih, hl]
        cases applyOp o [s, t] <;> simp

omit [FloatOps F] [AssocFloat F] in
theorem mapOpt_asScal {vs : List (D F)} {ss : List (Scal F)} (h : mapOpt Val.asScal vs = some ss) :
    vs = ss.map .sc := by
  induction vs generalizing ss with
  | nil => simp [mapOpt] at h; subst h; rfl
  | cons v vs ih =>
    simp only [mapOpt, Option.bind_eq_some_iff] at h
    obtain ⟨s, h1, ss', h2, h3⟩ := h
    cases h3
    rw [ih h2]
    cases v <;> simp [Val.asScal] at h1 ⊢
    exact h1

theorem uniform_scalars (ss : List (Scal F)) : Val.uniform (ss.map (Val.sc : Scal F → D F)) = true := by
  rw [Val.uniform_iff]
  intro v hv w hw
  simp only [List.mem_map] at hv hw
  obtain ⟨x, _, rfl⟩ := hv
  obtain ⟨y, _, rfl⟩ := hw
  rfl

/-- A loop that combines elements, against the bulk reduction of the comprehension of the elements. -/
theorem loop_bulk (k : RedKind) (size init : Option (D F)) (g : Int → Option (D F))
    (h : ∀ m, size = some (.int m) → 0 < m ∨ (k = .add ∧ ∃ x, init = some (.sc (.f x)))) :
    foldOf size init (fun j acc => opOf (redOp k) [some acc, g j]) = bulkOf k init (vecOf size g) := by
  unfold foldOf vecOf bulkOf
  cases hs : size.bind Val.asInt with
  | none => cases init.bind Val.asScal <;> simp
  | some m =>
    have hm : size = some (.int m) := by
      cases size with
      | none => cases hs
      | some v => cases v with
        | sc c => cases c <;> simp [Val.asInt] at hs; subst hs; rfl
        | vec _ => simp [Val.asInt] at hs
        | pair _ _ => simp [Val.asInt] at hs
    simp only [Option.bind_some]
    cases init with
    | none => simp
    | some v =>
      simp only [Option.bind_some]
      have hvec : (((mapOpt (fun j : Nat => g j) (List.range m.toNat)).bind fun vs =>
          if Val.uniform vs then some (Val.vec vs) else none).bind Val.asVec).bind (mapOpt Val.asScal) =
          mapOpt (fun j : Nat => (g j).bind Val.asScal) (List.range m.toNat) := by
        rw [Backend.mapOpt_bind]
        cases mapOpt (fun j : Nat => g j) (List.range m.toNat) with
        | none => rfl
        | some vs =>
          simp only [Option.bind_some]
          cases hss : mapOpt Val.asScal vs with
          | none => split <;> simp [Val.asVec, hss]
          | some ss =>
            have := mapOpt_asScal hss
            subst this
            rw [if_pos (uniform_scalars ss)]
            simp [Val.asVec, hss]
      have hb : ∀ s : Scal F, (((mapOpt (fun j : Nat => g j) (List.range m.toNat)).bind fun vs =>
          if Val.uniform vs then some (Val.vec vs) else none).bind Val.asVec).bind (fun vs =>
            ((mapOpt Val.asScal vs).bind (reduceScal k)).bind fun t => (applyOp (redOp k) [s, t]).map Val.sc) =
          ((mapOpt (fun j : Nat => (g j).bind Val.asScal) (List.range m.toNat)).bind (reduceScal k)).bind
            fun t => (applyOp (redOp k) [s, t]).map Val.sc := by
        intro s
        rw [← hvec]
        simp only [Option.bind_assoc]
      cases hn : m.toNat with
      | zero =>
        rcases h m hm with h1 | ⟨rfl, x, hx⟩
        · omega
        · cases hx
          simp [loopOpt, mapOpt, Val.asScal, Val.asVec, Val.uniform, reduceScal, sumScal, redOp, applyOp,
            AssocFloat.add_zero]
      | succ m' =>
        rw [hn] at hb
        cases v with
        | sc s =>
          simp only [Val.asScal, Option.bind_some]
          rw [hb, loopOpt_scalars]
          cases hss : mapOpt (fun j : Nat => (g j).bind Val.asScal) (List.range (m' + 1)) with
          | none => simp
          | some ss =>
            have hl := mapOpt_length hss
            cases ss with
            | nil => simp at hl
            | cons y ss =>
              simp only [Option.bind_some]
              rw [loopOpt_red, reduceScal_cons]
              cases loopOpt (fun a b => applyOp (redOp k) [a, b]) y ss <;> simp
        | vec _ | pair _ _ =>
          rw [show List.range (m' + 1) = 0 :: (List.range m').map Nat.succ from List.range_succ_eq_map]
          rw [loopOpt_cons]
          simp [opOf, mapOpt, Val.asScal]

variable [DecidableEq F]

omit [FloatOps F] [AssocFloat F] in
theorem isVar_eq {a : Nat} {e : Expr F} (h : isVar a e = true) : ∃ τ, e = node (.store (.var a) τ) [] := by
  unfold isVar at h
  split at h
  · simp at h; subst h; exact ⟨_, rfl⟩
  · cases h

omit [FloatOps F] [AssocFloat F] [DecidableEq F] in
theorem scoped_at (i : Nat) : Scoped (at_ i : Expr F) := .node (by intro k t h; simp at h) (by simp)

omit [FloatOps F] [AssocFloat F] [DecidableEq F] in
theorem mem_fv_at {i : Nat} {s : Sym} (h : s ∈ fv (at_ i : Expr F)) : s = .idx i := by
  obtain ⟨h | ⟨t, ht, _⟩, _⟩ := mem_fv.1 h
  · exact (Option.some.inj h).symm
  · cases ht

omit [AssocFloat F] in
/-- Evaluating the comprehension of the elements. -/
theorem run_elemsOf (I : Ext F) {c i : Nat} {n elem : Expr F} (hs : Scoped elem) (hi : Sym.idx i ∉ fv elem)
    (hc : Sym.var c ∉ binders elem) (hib : Sym.idx i ∉ binders elem) (env : Env (D F)) :
    run I (elemsOf c n elem i) env =
      vecOf (run I n env) (fun j => run I elem (env.set (.var c) (some (.int j)))) := by
  unfold elemsOf vec
  rw [run_node]
  simp only [List.map_cons, List.map_nil, runDen]
  congr 1
  funext j
  have h := substitute_strict (Phi.strict I) (fun h fs s env hs => by
      change Phi.Head.symbol h = some s at hs
      cases h <;> simp only [Phi.Head.symbol, reduceCtorEq, Option.some.injEq] at hs
      subst hs; rfl) [(Sym.var c, at_ i)] (fun p hp => by
        simp only [List.mem_singleton] at hp
        subst hp
        exact scoped_at i) elem hs (by
        rw [Finset.disjoint_right]
        intro s hs'
        simp only [keys, rangeFv, List.map_cons, List.map_nil, List.foldr, List.toFinset_cons, List.toFinset_nil,
          Finset.mem_union, Finset.mem_insert, Finset.notMem_empty, or_false] at hs'
        rcases hs' with rfl | hs'
        · exact hc
        · rw [mem_fv_at hs']; exact hib) (env.set (.idx i) (some (.int j)))
  refine h.trans (run_agree hs fun s hs' => ?_)
  unfold bindEnv
  by_cases hsc : s = .var c
  · subst hsc
    simp only [lookup, if_true]
    show run I (at_ i) _ = _
    unfold at_
    rw [run_node]
    simp [runDen, Env.set]
  · have : s ≠ .idx i := fun e => hi (e ▸ hs')
    simp [lookup, hsc, this, Env.set]

/-- A fold of this form combines the initial value with the elements one after another. -/
theorem run_fold_red (I : Ext F) {c a : Nat} {n z b elem : Expr F} {k : RedKind}
    (hb : matchReductionByBody b a = some (elem, k)) (hs : Scoped elem) (ha : Sym.var a ∉ fv elem) (hac : a ≠ c)
    (env : Env (D F)) :
    run I (fold c a n z b) env = foldOf (run I n env) (run I z env)
      (fun j acc => opOf (redOp k) [some acc, run I elem (env.set (.var c) (some (.int j)))]) := by
  unfold fold
  rw [run_node]
  simp only [List.map_cons, List.map_nil, runDen]
  congr 1
  funext j acc
  have he : run I elem ((env.set (.var a) (some acc)).set (.var c) (some (.int j))) =
      run I elem (env.set (.var c) (some (.int j))) := run_agree hs fun s hs' => by
    have : s ≠ .var a := fun e => ha (e ▸ hs')
    simp [Env.set, this]
  have hacc : ∀ τ, run I (node (.store (.var a) τ) []) ((env.set (.var a) (some acc)).set (.var c) (some (.int j))) =
      some acc := by
    intro τ
    rw [run_node]
    simp [runDen, Env.set, hac]
  unfold matchReductionByBody at hb
  split at hb
  · rename_i f x y
    obtain ⟨k', hk, hb'⟩ := Option.bind_eq_some_iff.1 hb
    clear hb
    have hb := hb'
    clear hb'
    have hf : f = redOp k' := by cases f <;> simp [redKind] at hk <;> subst hk <;> rfl
    rw [run_node]
    simp only [List.map_cons, List.map_nil, runDen]
    split at hb
    · rename_i hx
      obtain ⟨τ, rfl⟩ := isVar_eq hx
      cases hb
      rw [hacc, he, hf]
    · split at hb
      · rename_i hy
        obtain ⟨τ, rfl⟩ := isVar_eq hy
        cases hb
        rw [hacc, he, hf]
        cases hv : run I elem (env.set (.var c) (some (.int j))) with
        | none => cases acc <;> simp [opOf, mapOpt, Val.asScal]
        | some v =>
          cases acc <;> cases v <;> simp [opOf, mapOpt, Val.asScal]
          rw [red_comm]
      · cases hb
  · cases hb

/-- A fold of this form is one bulk reduction of its elements. -/
theorem run_reduction (I : Ext F) {c a i : Nat} {n z b elem : Expr F} {k : RedKind}
    (hb : matchReductionByBody b a = some (elem, k)) (hs : Scoped elem) (ha : Sym.var a ∉ fv elem) (hac : a ≠ c)
    (hi : Sym.idx i ∉ fv elem) (hc : Sym.var c ∉ binders elem) (hib : Sym.idx i ∉ binders elem)
    (env : Env (D F)) (h : ∀ m, run I n env = some (.int m) →
      0 < m ∨ (k = .add ∧ ∃ x, run I z env = some (.sc (.f x)))) :
    run I (fold c a n z b) env = bulkOf k (run I z env) (run I (elemsOf c n elem i) env) := by
  rw [run_fold_red I hb hs ha hac, run_elemsOf I hs hi hc hib]
  exact loop_bulk k _ _ _ h

end

/-! ### The code of the reduction -/

section
variable [FloatOps F] {J : YExt F} {yenv : Env (YVal F)} {S : Nat → Prop} {σ : Nat → Nat}

theorem bulkOf_some {k : RedKind} {z e : Option (D F)} {w : D F} (h : bulkOf k z e = some w) :
    ∃ s ss t u, z = some (.sc s) ∧ e = some (.vec (ss.map .sc)) ∧ reduceScal k ss = some t ∧
      applyOp (redOp k) [s, t] = some u ∧ w = .sc u := by
  unfold bulkOf at h
  obtain ⟨s, h1, h⟩ := Option.bind_eq_some_iff.1 h
  obtain ⟨vs, h2, h⟩ := Option.bind_eq_some_iff.1 h
  obtain ⟨t, h3, h⟩ := Option.bind_eq_some_iff.1 h
  obtain ⟨ss, h4, h3⟩ := Option.bind_eq_some_iff.1 h3
  obtain ⟨u, h5, rfl⟩ := Option.map_eq_some_iff.1 h
  obtain ⟨v, rfl, h1⟩ := Option.bind_eq_some_iff.1 h1
  obtain ⟨v', rfl, h2⟩ := Option.bind_eq_some_iff.1 h2
  refine ⟨s, ss, t, u, ?_, ?_, h3, h5, rfl⟩
  · cases v <;> simp [Val.asScal] at h1
    rw [h1]
  · cases v' <;> simp [Val.asVec] at h2
    rw [h2, mapOpt_asScal h4]

/-- The reduction along the first axis that is not an index. -/
theorem one_reduceAxis {x : Axial F} {v : (Nat → Nat) → Option (D F)} {k : RedKind} {p : Nat}
    (h : Means J yenv S σ x v) (hσ : Positive S σ) (hp : x.positional 0 = some p)
    (hdef : ∀ ρ, Valid S σ ρ → ∃ ss t, v ρ = some (.vec (ss.map .sc)) ∧ reduceScal k ss = some t) :
    ∃ a, Yarr.eval J (node (.reduceAxis k p) [x.expr]) yenv = some (.arr a) ∧
      RankOk J yenv (node (.reduceAxis k p) [x.expr]) ∧ a.shape = x.axes.map σ ∧
      ∀ ρ, Valid S σ ρ → ∀ ss t, v ρ = some (.vec (ss.map .sc)) → reduceScal k ss = some t →
        a.get? (x.axes.map ρ) = some t := by
  unfold Axial.positional at hp
  obtain ⟨r, hr, hp⟩ := Option.bind_eq_some_iff.1 hp
  split at hp
  · cases hp
    rename_i hlt
    obtain ⟨a, s, ho, hrs⟩ := h.one hr
    have hs : ∃ n, s = [n] := by
      obtain ⟨ss, t, h1, _⟩ := hdef _ (valid_zero hσ)
      obtain ⟨w, h2, h3⟩ := ho.reps _ (valid_zero hσ)
      rw [h1] at h2; cases h2
      obtain ⟨s', rfl⟩ := h3.vec
      obtain ⟨h0, vs, h4, h5, h6⟩ := h3
      cases h4
      cases ss with
      | nil => simp at h0
      | cons c ss =>
        obtain ⟨rfl, _⟩ := Reps.sc (h6 0 (.sc c) (by simp))
        exact ⟨_, rfl⟩
    obtain ⟨n, rfl⟩ := hs
    have hrow : ∀ ρ, Valid S σ ρ → ∀ ss, v ρ = some (.vec (ss.map .sc)) →
        mapOpt (fun j => a.get? (x.axes.map ρ ++ [j])) (List.range n) = some ss := by
      intro ρ hρ ss hss
      obtain ⟨w, h2, h3⟩ := ho.reps ρ hρ
      rw [hss] at h2; cases h2
      obtain ⟨h0, vs, h4, h5, h6⟩ := h3
      cases h4
      simp only [List.length_map] at h5
      subst h5
      rw [mapOpt_eq_forall₂, List.forall₂_iff_get]
      refine ⟨by simp, fun i h7 h8 => ?_⟩
      have h9 : i < ss.length := by simpa using h7
      obtain ⟨y, e1, e2⟩ := h6 i (.sc ss[i]) (by simp [h9])
      cases e1
      simpa using e2
    have hsh : a.shape.eraseIdx x.axes.length = x.axes.map σ := by
      rw [ho.shape, List.eraseIdx_append_of_length_le (by simp)]; simp
    have hd : a.shape.getD x.axes.length 0 = n := by
      rw [ho.shape, List.getD_eq_getElem?_getD, List.getElem?_append_right (by simp)]; simp
    have hins : ∀ (ρ : Nat → Nat) j, (x.axes.map ρ).insertIdx x.axes.length j = x.axes.map ρ ++ [j] := by
      intro ρ j
      have := List.insertIdx_length_self (l := x.axes.map ρ) (x := j)
      simpa using this
    obtain ⟨b, hb, hbs, hbg⟩ := NArr.ofFn?_spec (s := x.axes.map σ) (f := fun ix =>
        (mapOpt (fun j => a.get? (ix.insertIdx x.axes.length j)) (List.range n)).bind (reduceScal k)) (by
      intro ix hix
      obtain ⟨ρ, jx, hρ, hj, rfl⟩ := valid_position hσ ho.nodup (s := []) (by simpa using hix)
      rw [inRange_nil] at hj
      subst hj
      obtain ⟨ss, t, h1, h2⟩ := hdef ρ hρ
      simp only [List.append_nil, hins, hrow ρ hρ ss h1, Option.bind_some, h2, Option.isSome_some])
    refine ⟨b, ?_, ?_, hbs, ?_⟩
    · rw [Yarr.eval_node]
      simp only [List.map_cons, List.map_nil, Yarr.den, arr1, ho.value, Option.bind_some, YVal.asArr,
        NArr.reduceAxis]
      rw [if_pos (by rw [NArr.rank, ho.shape]; simp), Nat.add_zero, hsh, hd, hb]
      rfl
    · exact rankOk_node (by trivial) (by intro t ht; simp at ht; subst ht; exact ho.rank)
    · intro ρ hρ ss t h1 h2
      rw [hbg _ (inRange_map.2 fun i hi => hρ i (ho.sub i hi))]
      simp only [hins, hrow ρ hρ ss h1, Option.bind_some, h2]
  · cases hp

/-- The code of a reduction computes the bulk reduction. -/
theorem means_reduction {x z y : Axial F} {v u : (Nat → Nat) → Option (D F)} {k : RedKind}
    (hx : Means J yenv S σ x v) (hz : Means J yenv S σ z u) (hσ : Positive S σ)
    (hy : reductionCode k x z = some y)
    (hdef : ∀ ρ, Valid S σ ρ → ∃ w, bulkOf k (u ρ) (v ρ) = some w) :
    Means J yenv S σ y fun ρ => bulkOf k (u ρ) (v ρ) := by
  unfold reductionCode at hy
  obtain ⟨p, hp, hy⟩ := Option.bind_eq_some_iff.1 hy
  obtain ⟨e, he, hy⟩ := Option.bind_eq_some_iff.1 hy
  obtain ⟨rfl, hi, -⟩ := mk?_eq_some hy
  obtain ⟨a, ha, har, has, hag⟩ := one_reduceAxis (k := k) hx hσ hp (by
    intro ρ hρ
    obtain ⟨w, hw⟩ := hdef ρ hρ
    obtain ⟨s, ss, t, _, _, h2, h3, _⟩ := bulkOf_some hw
    exact ⟨ss, t, h2, h3⟩)
  obtain ⟨b, ho, hb⟩ := hz.scal hσ (by
    intro ρ hρ
    obtain ⟨w, hw⟩ := hdef ρ hρ
    obtain ⟨s, ss, t, _, h1, _⟩ := bulkOf_some hw
    exact ⟨s, h1⟩)
  have hz0 : z.axes = [] ∧ e = z.expr := by
    unfold Axial.normal at he
    split at he
    · rename_i h; cases he; exact ⟨h, rfl⟩
    · cases he
  obtain ⟨hza, rfl⟩ := hz0
  have hbs := ho.shape
  rw [hza] at hbs
  simp only [List.map_nil, List.append_nil] at hbs
  have hval : ∀ ρ, Valid S σ ρ → ∃ c, (mapOpt (fun o : List Nat × A F × A F => o.2.1.get? (o.1.map ρ))
      [([], b, b), (x.axes, a, a)]).bind (applyOp (redOp k)) = some c ∧ bulkOf k (u ρ) (v ρ) = some (.sc c) := by
    intro ρ hρ
    obtain ⟨w, hw⟩ := hdef ρ hρ
    obtain ⟨s, ss, t, c, h1, h2, h3, h4, rfl⟩ := bulkOf_some hw
    have h5 := hb ρ hρ
    rw [h1, hza] at h5
    simp only [Option.bind_some, Val.asScal, List.map_nil] at h5
    refine ⟨c, ?_, hw⟩
    simp only [mapOpt, List.map_nil, ← h5, hag ρ hρ ss t h2 h3, Option.bind_some, h4]
  obtain ⟨d, hd, hds, hdg⟩ := zipAll_spread (f := applyOp (redOp k)) hi
    (ops := [([], b, b), (x.axes, a, a)]) (σ := σ) (by
      intro o ho'
      simp only [List.mem_cons, List.not_mem_nil, or_false] at ho'
      rcases ho' with rfl | rfl
      · exact ⟨[], σ, List.nil_suffix, ⟨by simpa using hbs, fun _ _ _ _ => rfl⟩, by simp, by simp⟩
      · exact ⟨x.axes, σ, List.suffix_refl _, ⟨by simpa using has, fun _ _ _ _ => rfl⟩, by simp, by simp⟩)
    (fun i hi' => ⟨(x.axes, a, a), by simp, hi'⟩) (by
      intro ρ hρ
      obtain ⟨ρ', e1, e2⟩ := valid_extend hσ hρ
      obtain ⟨c, hc, _⟩ := hval ρ' e1
      simp only [mapOpt, List.map_nil, e2] at hc ⊢
      rw [hc]; rfl)
  refine One.means (a := d) (s := []) ⟨hx.1, ?_, ?_, hi, by simpa using hds, fun ρ hρ => ?_⟩
  · rw [Yarr.eval_node]
    have h2 : List.Forall₂ (fun e b => Yarr.eval J e yenv = some (.arr b))
        [z.expr, node (.reduceAxis k p) [x.expr]] [b, a] := .cons ho.value (.cons ha .nil)
    simp only [Yarr.den, arrsOf_forall₂ h2, Option.bind_some]
    have : NArr.zipAll (applyOp (redOp k)) [b, a] = some d := hd
    rw [this]; rfl
  · refine rankOk_node (by trivial) fun t ht => ?_
    simp only [List.mem_cons, List.not_mem_nil, or_false] at ht
    rcases ht with rfl | rfl
    · exact ho.rank
    · exact har
  · obtain ⟨c, hc1, hc2⟩ := hval ρ hρ
    refine ⟨_, hc2, _, rfl, ?_⟩
    simp only [List.append_nil]
    rw [hdg ρ fun i hi' => hρ i (hx.1 i hi'), hc1]
end

end Verif.Codegen
