import Verif.Codegen.AxesOf
import Verif.Codegen.MeansGet
import Verif.Props.C14
import Verif.Backend.Reduce
import Verif.Phi.Busy

/-!
A reference interpreter that in addition checks what the compiler takes for granted, and the scoping of
programs.
-/

set_option linter.unusedSectionVars false

namespace Verif.Codegen
open Verif.Phi Verif.Term Verif.Yarr Verif.Arr
open Verif.Backend (treeReduce treeLoop accStep batch everyOther)
variable {F : Type}

/-- Has the value this type? -/
def hasTy : Ty → D F → Bool
  | .scalar k, .sc c => decide (c.kind = k)
  | .vector τ, .vec vs => vs.all (hasTy τ)
  | .pair σ τ, .pair a b => hasTy σ a && hasTy τ b
  | _, _ => false

theorem hasTy_iff {τ : Ty} {v : D F} : hasTy τ v = true ↔ HasType v τ := by
  induction τ generalizing v with
  | scalar k =>
    cases v with
    | sc c =>
      simp only [hasTy, decide_eq_true_eq]
      constructor
      · rintro rfl; exact .sc c
      · intro h; cases h; rfl
    | vec vs => simp [hasTy]; intro h; cases h
    | pair a b => simp [hasTy]; intro h; cases h
  | vector τ ih =>
    cases v with
    | sc c => simp [hasTy]; intro h; cases h
    | vec vs =>
      simp only [hasTy, List.all_eq_true, ih]
      constructor
      · exact fun h => .vec h
      · intro h; cases h with | vec h => exact h
    | pair a b => simp [hasTy]; intro h; cases h
  | pair σ τ ih1 ih2 =>
    cases v with
    | sc c => simp [hasTy]; intro h; cases h
    | vec vs => simp [hasTy]; intro h; cases h
    | pair a b =>
      simp only [hasTy, Bool.and_eq_true, ih1, ih2]
      constructor
      · exact fun h => .pair h.1 h.2
      · intro h; cases h with | pair h1 h2 => exact ⟨h1, h2⟩

/-- A value of a type, if types are checked. -/
def typed (tc : Bool) (τ : Option Ty) (v : Option (D F)) : Option (D F) :=
  v.bind fun v => if tc = true ∧ (τ.any fun τ => hasTy τ v) = false then none else some v

/-- The tuples of corresponding elements of vectors of the same length, at least one. -/
def rowsOf (vecs : List (Option (D F))) : Option (List (D F)) :=
  (mapOpt (fun v : Option (D F) => v.bind Val.asVec) vecs).bind fun vs =>
    match vs with
    | [] => none
    | l :: ls => if ls.all (fun l' => decide (l'.length = l.length)) then mapOpt (rowAt vs) (List.range l.length) else none

/-- Does the symbol occur nowhere in the expression? -/
def absent (s : Sym) (e : Expr F) : Bool := decide (s ∉ fv e ∧ s ∉ binders e)

/-- What the reduction that binds `x` needs, where `a` is its initial value, `rows` are the values to combine and `op`
combines two of them: no new index is in use; if types are checked, the values are of type `τ`; combined in the order
of the array backend they give the same as from left to right. -/
def reduceCheck (o : Opts F) (tc : Bool) (τ : Option Ty) (op : D F → D F → Option (D F)) (a : D F)
    (rows : List (D F)) : Option (D F) :=
  if tc = true ∧ (τ.any fun τ => hasTy τ a && rows.all (hasTy τ)) = false then none else
  (treeReduce op a rows).bind fun t => (loopOpt op a rows).bind fun v => if o.same t v then some v else none

/-- The rank of the array that represents a value, if it is one array that is not empty. -/
def depth : D F → Option Nat
  | .sc _ => some 0
  | .vec (v :: _) => (depth v).map (· + 1)
  | .vec [] => none
  | .pair _ _ => none

/-- Are the values represented by arrays of the same rank? -/
def evenRanks : List (D F) → Bool
  | [] => true
  | v :: vs => (depth v).isSome && vs.all fun w => decide (depth w = depth v)

/-- The value, unless it is ragged, empty or not of the type. -/
def regularOf (τ : Ty) (v : D F) : Option (D F) :=
  (constArr τ v).bind fun a => if (∀ d ∈ a.shape, 0 < d) ∧ hasTy τ v = true then some v else none

/-- What a call of an external function needs: the operands have the same rank, and the result is not ragged, not empty
and of the declared type. -/
def extCheck (I : Ext F) (fn : Nat) (τ : Ty) (vs : List (Option (D F))) : Option (D F) :=
  (mapOpt (fun v => v) vs).bind fun ws => if evenRanks ws then (I fn ws).bind (regularOf τ) else none

variable [FloatOps F]

/-- Is the low end of a clipped position, if it is there, not negative? -/
def lowOk (I : Ext F) (env : Env (D F)) : Option (Expr F) → Bool
  | none => true
  | some e => ((run I e env).bind Val.asInt).any fun l => decide (0 ≤ l)

/-- Is the high end of a clipped position, if it is there, a position of the array? -/
def highOk (I : Ext F) (env : Env (D F)) (m : Nat) : Option (Expr F) → Bool
  | none => true
  | some e => ((run I e env).bind Val.asInt).any fun h => decide (0 ≤ h ∧ h < (m : Int))

/-- What a read compiled to a slice needs: its low and high ends are inside the array. What a read that is
dropped needs: the index ranges over exactly the positions of the array. -/
def readOk (o : Opts F) (I : Ext F) (sz : Nat → Nat) (env : Env (D F)) (t i : Expr F) : Bool :=
  match window o t i with
  | none => true
  | some (index, c) => ((run I t env).bind Val.asVec).any fun vs =>
      if elided o t index c then decide (vs.length = sz index)
      else lowOk I env c.2.1 && highOk I env vs.length c.2.2

/-- One node of the checked interpreter. It is the reference interpreter `runDen`, except that it has no
value
* for constants that are ragged, empty or not of their type;
* for a comprehension of size 0 or less;
* for a read for which `readOk` does not hold;
* for a reduction for which `reduceCheck` does not hold, or the index of which is in use;
* for a call of an external function for which `extCheck` does not hold;
* if types are checked, where a variable or a pair has not its static type.

`sz` gives the range of each index. -/
def checkDen (o : Opts F) (I : Ext F) (tc : Bool) :
    Phi.Head F → List (Expr F × ((Nat → Nat) → Env (D F) → Option (D F))) → (Nat → Nat) → Env (D F) → Option (D F)
  | .const v τ, _, _, _ => (constArr τ v).bind fun a =>
      if (∀ d ∈ a.shape, 0 < d) ∧ hasTy τ v = true then some v else none
  | .store s τ, _, _, env => typed tc (some τ) (env s)
  | .vec i, [n, b], sz, env => ((n.2 sz env).bind Val.asInt).bind fun m =>
      if 0 < m then vecOf (some (.int m)) fun k => b.2 (upd sz i m.toNat) (env.set (.idx i) (some (.int k)))
      else none
  | .get, [t, i], sz, env => if readOk o I sz env t.1 i.1 then getOf (t.2 sz env) (i.2 sz env) else none
  | .fst, [t], sz, env => fstOf (typed tc (typeOf t.1) (t.2 sz env))
  | .snd, [t], sz, env => sndOf (typed tc (typeOf t.1) (t.2 sz env))
  | .reduce x y, z :: b :: vs, sz, env =>
      if (env (.idx (o.batch x))).isNone = true ∧ absent (.idx (o.batch x)) b.1 = true then
        (z.2 sz env).bind fun a => (rowsOf (vs.map fun v => v.2 sz env)).bind fun rows =>
          reduceCheck o tc (typeOf b.1) (fun p q => b.2 (upd sz (o.batch x) 1)
            (((env.set (.idx (o.batch x)) (some (.int 0))).set (.var x) (some p)).set (.var y) (some q))) a rows
      else none
  | .ext fn τ, ts, sz, env => extCheck I fn τ (ts.map fun t => t.2 sz env)
  | h, ts, sz, env => runDen I h (ts.map fun t => t.2 sz) env

/-- The ranges of the new indices, if their sizes are positive. -/
def sumSizes (val : Expr F → Option (D F)) : List (Nat × Expr F) → (Nat → Nat) → Option (Nat → Nat)
  | [], sz => some sz
  | (i, n) :: l, sz => ((val n).bind Val.asInt).bind fun m =>
      if 0 < m then sumSizes val l (upd sz i m.toNat) else none

/-- Does it hold for all values of the indices? -/
def allAssigned (sz : Nat → Nat) : List Nat → Env (D F) → (Env (D F) → Bool) → Bool
  | [], env, p => p env
  | i :: l, env, p => (List.range (sz i)).all fun j => allAssigned sz l (env.set (.idx i) (some (.int j))) p

/-- Is no symbol that the expression binds in use? -/
def unused (env : Env (D F)) (t : Expr F) : Bool := decide (∀ s ∈ binders t, (env s).isNone = true)

/-- What the plan of a fold needs: it is safe, no symbol that is bound in it and no new index is in use, and `rec`
has a value for the expressions in it. For `einsum`, in addition: the sizes are positive, every new index of a product is an axis of
one of its factors, and the sum is a float. -/
def checkPlan (o : Opts F) (rec : Expr F → (Nat → Nat) → Env (D F) → Option (D F)) (sz : Nat → Nat) (env : Env (D F))
    (v : Option (D F)) : Plan F → Bool
  | .fail => false
  | .bulk safe _ i elems init => safe && (env (.idx i)).isNone && unused env elems &&
      unused env init &&
      (rec elems sz env).isSome && (rec init sz env).isSome
  | .dot safe sums products => safe && (sums.all fun q => (env (.idx q.1)).isNone && unused env q.2) &&
      (products.all fun p => p.2.all (unused env)) &&
      (v.any (hasTy (.scalar .float))) &&
      (sumSizes (fun n => rec n sz env) sums sz).any fun sz' => products.all fun p =>
        (allAssigned sz' p.1 env fun env' => p.2.all fun f => (rec f sz' env').isSome) &&
          p.1.all fun i => p.2.any fun f => decide (i ∈ axesOf o f fun _ => ∅)

/-- `check`, for both cases at once. -/
def checkAll (o : Opts F) (I : Ext F) : Expr F → Bool → (Nat → Nat) → Env (D F) → Option (D F) :=
  planRec o (fun h ts tc => checkDen o I tc h (ts.map fun t => (t.1, t.2 tc))) fun rec h ts p _ sz env =>
    if checkPlan o (rec · true) sz env (run I (node h ts) env) p then run I (node h ts) env else none

/-- The checked reference interpreter. At folds with a plan it has the value of the reference interpreter if the
conditions `checkPlan` hold; types are always checked there. -/
def check (o : Opts F) (I : Ext F) (tc : Bool) (e : Expr F) : (Nat → Nat) → Env (D F) → Option (D F) :=
  checkAll o I e tc

theorem allAssigned_congr {sz : Nat → Nat} {p q : Env (D F) → Bool} (h : ∀ env, p env = q env) (l : List Nat) :
    ∀ env, allAssigned sz l env p = allAssigned sz l env q := by
  induction l with
  | nil => exact h
  | cons i l ih => intro env; simp only [allAssigned, ih]

theorem sumSizes_congr {v w : Expr F → Option (D F)} (l : List (Nat × Expr F)) (h : ∀ q ∈ l, v q.2 = w q.2) :
    ∀ sz, sumSizes v l sz = sumSizes w l sz := by
  induction l with
  | nil => exact fun _ => rfl
  | cons q l ih =>
    intro sz
    obtain ⟨i, n⟩ := q
    have := h (i, n) (by simp)
    dsimp only at this
    simp only [sumSizes, this, ih fun r hr => h r (by simp [hr])]

theorem checkPlan_congr {o : Opts F} {f g : Expr F → (Nat → Nat) → Env (D F) → Option (D F)} {p : Plan F}
    (h : ∀ t ∈ p.exprs, f t = g t) (sz : Nat → Nat) (env : Env (D F)) (v : Option (D F)) :
    checkPlan o f sz env v p = checkPlan o g sz env v p := by
  cases p with
  | fail => rfl
  | bulk s k i elems init =>
    simp only [checkPlan, h elems (by simp [Plan.exprs]), h init (by simp [Plan.exprs])]
  | dot s sums products =>
    have h1 : ∀ q ∈ sums, f q.2 = g q.2 := fun q hq => h _ (by
      simp only [Plan.exprs, List.mem_append]; exact .inl (List.mem_map.2 ⟨q, hq, rfl⟩))
    have h2 : ∀ p ∈ products, ∀ t ∈ p.2, f t = g t := fun p hp t ht => h _ (by
      simp only [Plan.exprs, List.mem_append]; exact .inr (List.mem_flatMap.2 ⟨p, hp, ht⟩))
    simp only [checkPlan]
    rw [sumSizes_congr sums (w := fun n => g n sz env) (fun q hq => by rw [h1 q hq])]
    congr 2
    funext sz'
    rw [Bool.eq_iff_iff, List.all_eq_true, List.all_eq_true]
    refine forall₂_congr fun p hp => ?_
    rw [allAssigned_congr (q := fun env' => p.2.all fun f => (g f sz' env').isSome)]
    intro env'
    rw [Bool.eq_iff_iff, List.all_eq_true, List.all_eq_true]
    exact forall₂_congr fun t ht => by rw [h2 p hp t ht]

theorem checkAll_eq (o : Opts F) (I : Ext F) (h : Phi.Head F) (ts : List (Expr F)) :
    checkAll o I (node h ts) =
      match planned o h ts with
      | none => fun tc => checkDen o I tc h ((ts.map fun t => (t, checkAll o I t)).map fun t => (t.1, t.2 tc))
      | some p => fun _ sz env =>
        if checkPlan o (checkAll o I · true) sz env (run I (node h ts) env) p then run I (node h ts) env else none := by
  refine planRec_node (fun f g _ _ p _ hfg => ?_) h ts
  funext tc sz env
  rw [checkPlan_congr fun t ht => by rw [hfg t ht]]

theorem check_node (o : Opts F) (I : Ext F) (tc : Bool) (h : Phi.Head F) (ts : List (Expr F))
    (hp : planned o h ts = none) :
    check o I tc (node h ts) = checkDen o I tc h (ts.map fun t => (t, check o I tc t)) := by
  unfold check
  rw [checkAll_eq, hp]
  simp only [List.map_map, Function.comp_def]

theorem check_plan {o : Opts F} {I : Ext F} {tc : Bool} {h : Phi.Head F} {ts : List (Expr F)} {p : Plan F}
    (hp : planned o h ts = some p) (sz : Nat → Nat) (env : Env (D F)) :
    check o I tc (node h ts) sz env =
      if checkPlan o (check o I true) sz env (run I (node h ts) env) p then run I (node h ts) env else none := by
  unfold check
  rw [checkAll_eq, hp]

/-- One node of `lexical`. -/
def lexStep : Phi.Head F → List (Finset Sym → Bool) → Finset Sym → Bool
  | .store s _, ts, S => decide (s ∈ S) && ts.all (· S)
  | .letv v, [b, e], S => b S && decide (Sym.var v ∉ S) && e (insert (.var v) S)
  | .vec i, [n, b], S => n S && decide (Sym.idx i ∉ S) && b (insert (.idx i) S)
  | .fold c a, [n, z, b], S => n S && z S && decide (Sym.var c ∉ S) && decide (Sym.var a ∉ S) && decide (c ≠ a) &&
      b (insert (.var c) (insert (.var a) S))
  | .reduce x y, z :: b :: vs, S => z S && vs.all (· S) && decide (Sym.var x ∉ S) && decide (Sym.var y ∉ S) &&
      decide (x ≠ y) && b (insert (.var x) (insert (.var y) S))
  | _, ts, S => ts.all (· S)

omit [FloatOps F] in
/-- Every symbol is in scope where it is used, where `S` is in scope around the term, and no binder binds
a symbol that is in scope already. -/
def lexical (e : Expr F) : Finset Sym → Bool := cata lexStep e

omit [FloatOps F] in
theorem lexical_node (h : Phi.Head F) (ts : List (Expr F)) :
    lexical (node h ts) = lexStep h (ts.map lexical) := cata_node _ _ _

/-! ### The checked interpreter agrees with the reference interpreter -/

omit [FloatOps F] in
theorem typed_some {tc : Bool} {τ : Option Ty} {v : Option (D F)} {w : D F} (h : typed tc τ v = some w) :
    v = some w ∧ (tc = true → ∃ t, τ = some t ∧ HasType w t) := by
  unfold typed at h
  simp only [Option.bind_eq_some_iff] at h
  obtain ⟨u, rfl, h⟩ := h
  split at h
  · cases h
  · rename_i hn
    cases h
    refine ⟨rfl, fun htc => ?_⟩
    cases τ with
    | none => exact absurd ⟨htc, rfl⟩ hn
    | some t =>
      refine ⟨t, rfl, hasTy_iff.1 ?_⟩
      by_contra hc
      exact hn ⟨htc, by simpa using hc⟩

omit [FloatOps F] in
theorem absent_child {s : Sym} {h : Phi.Head F} {ts : List (Expr F)} (ha : absent s (node h ts) = true) :
    s ∉ Lang.captured h ∧ Lang.symbol h ≠ some s ∧ ∀ t ∈ ts, absent s t = true := by
  simp only [absent, decide_eq_true_eq] at ha ⊢
  have hc : s ∉ Lang.captured h := fun hm => ha.2 (mem_binders.2 (.inl hm))
  exact ⟨hc, fun hs => ha.1 (mem_fv.2 ⟨.inl hs, hc⟩), fun t ht =>
    ⟨fun hf => ha.1 (mem_fv.2 ⟨.inr ⟨t, ht, hf⟩, hc⟩), fun hb => ha.2 (mem_binders.2 (.inr ⟨t, ht, hb⟩))⟩⟩

/-- The value of a symbol that does not occur is irrelevant. -/
theorem run_absent {I : Ext F} {s : Sym} (e : Expr F) : ∀ (env env' : Env (D F)), absent s e = true →
    (∀ s', s' ≠ s → env s' = env' s') → run I e env = run I e env' := by
  have key : ∀ e : Expr F, ∀ (env env' : Env (D F)), absent s e = true →
      (∀ s', s' ≠ s → env s' = env' s') → Verif.Le (run I e env) (run I e env') := by
    intro e
    induction e using ind with
    | step h ts ih =>
      intro env env' ha he
      obtain ⟨-, hs, hc⟩ := absent_child ha
      rw [run_node]
      refine (Phi.strict I).mono h _ _ env env' rfl (fun s' hs' => ?_) fun k f g hf hg => ?_
      · rw [he s' fun e => hs (e ▸ hs')]; exact Verif.Le.rfl
      · rw [hf] at hg
        cases hg
        rw [List.getElem?_map, Option.map_eq_some_iff] at hf
        obtain ⟨t, ht, rfl⟩ := hf
        have ht := List.mem_of_getElem? ht
        refine ⟨fun _ => ih t ht _ _ (hc t ht) he, fun _ ext => ih t ht _ _ (hc t ht) fun s' hs' => ?_⟩
        unfold Env.override
        split
        · rfl
        · exact he s' hs'
  intro env env' ha he
  have h1 := key e env env' ha he
  have h2 := key e env' env ha fun s' hs' => (he s' hs').symm
  cases hv : run I e env with
  | some v => exact (h1 v hv).symm
  | none =>
    cases hv' : run I e env' with
    | none => rfl
    | some v => have := h2 v hv'; rw [hv] at this; cases this

omit [FloatOps F] in
/-- The rows of vectors, and the reduction over them. -/
theorem reduceOf_rows {vecs : List (Option (D F))} {rows : List (D F)} (h : rowsOf vecs = some rows) (a : D F)
    (body : D F → D F → Option (D F)) : Phi.reduceOf (some a) vecs body = loopOpt body a rows := by
  unfold rowsOf at h
  unfold Phi.reduceOf
  cases hv : mapOpt (fun v : Option (D F) => v.bind Val.asVec) vecs with
  | none => rw [hv] at h; cases h
  | some vs =>
    rw [hv] at h
    simp only [Option.bind_some] at h ⊢
    cases vs with
    | nil => cases h
    | cons l ls =>
      simp only at h ⊢
      split at h
      · rename_i hl
        rw [if_pos hl]
        generalize List.range l.length = r at h ⊢
        induction r generalizing a rows with
        | nil => simp only [mapOpt, Option.some.injEq] at h; subst h; rfl
        | cons i r ih =>
          cases hr : rowAt (l :: ls) i with
          | none => simp [mapOpt, hr] at h
          | some w =>
            cases hr' : mapOpt (rowAt (l :: ls)) r with
            | none => simp [mapOpt, hr, hr'] at h
            | some ws =>
              simp only [mapOpt, hr, hr', Option.bind_some, Option.some.injEq] at h
              subst h
              simp only [loopOpt, hr, Option.bind_some]
              cases body a w with
              | none => rfl
              | some u => exact ih u hr'
      · cases h

omit [FloatOps F] in
theorem regularOf_some {τ : Ty} {v w : D F} (h : regularOf τ v = some w) :
    w = v ∧ HasType v τ ∧ ∃ a, constArr τ v = some a ∧ ∀ d ∈ a.shape, 0 < d := by
  simp only [regularOf, Option.bind_eq_some_iff] at h
  obtain ⟨a, ha, h⟩ := h
  split at h
  · rename_i hc
    cases h
    exact ⟨rfl, hasTy_iff.1 hc.2, a, ha, hc.1⟩
  · cases h

omit [FloatOps F] in
theorem extCheck_some {I : Ext F} {fn : Nat} {τ : Ty} {vs : List (Option (D F))} {w : D F}
    (h : extCheck I fn τ vs = some w) : ∃ ws, mapOpt (fun v => v) vs = some ws ∧ evenRanks ws = true ∧
      I fn ws = some w ∧ HasType w τ ∧ ∃ a, constArr τ w = some a ∧ ∀ d ∈ a.shape, 0 < d := by
  simp only [extCheck, Option.bind_eq_some_iff] at h
  obtain ⟨ws, h1, h⟩ := h
  split at h
  · rename_i h2
    obtain ⟨u, h3, h4⟩ := Option.bind_eq_some_iff.1 h
    obtain ⟨rfl, h5, h6⟩ := regularOf_some h4
    exact ⟨ws, h1, h2, h3, h5, h6⟩
  · cases h

/-- A value of the checked interpreter is the value of the reference interpreter. -/
theorem check_run {o : Opts F} {I : Ext F} {tc : Bool} (e : Expr F) :
    ∀ sz env v, check o I tc e sz env = some v → run I e env = some v := by
  induction e using ind with
  | step h ts ih =>
    intro sz env v hv
    cases hp : planned o h ts with
    | some p =>
      rw [check_plan hp] at hv
      split at hv
      · exact hv
      · cases hv
    | none =>
    rw [check_node _ _ _ _ _ hp] at hv
    rw [run_node]
    have two : ∀ a b : Expr F, ts = [a, b] → (∀ u, check o I tc a sz env = some u → run I a env = some u) ∧
        (∀ u, check o I tc b sz env = some u → run I b env = some u) := by
      rintro a b rfl
      exact ⟨fun u => ih a (by simp) sz env u, fun u => ih b (by simp) sz env u⟩
    have many : ∀ {γ : Type} (p : Option (D F) → Option γ) (_ : p none = none) (l : List (Expr F)) (_ : ∀ t ∈ l, t ∈ ts)
        (rs : List γ),
        mapOpt p (((l.map fun t => (t, check o I tc t)).map fun t => t.2 sz).map (· env)) = some rs →
        mapOpt p ((l.map (run I)).map (· env)) = some rs := by
      intro γ p hp l hl rs h
      simp only [List.map_map, mapOpt_map, Function.comp_def] at h ⊢
      refine mapOpt_mono (fun t ht b hb => ?_) h
      cases hc : check o I tc t sz env with
      | none => rw [hc, hp] at hb; cases hb
      | some u => rw [hc] at hb; rw [ih t (hl t ht) _ _ _ hc]; exact hb
    cases h with
    | const w τ =>
      simp only [checkDen, Option.bind_eq_some_iff] at hv
      obtain ⟨a, _, hv⟩ := hv
      split at hv
      · cases hv; rfl
      · cases hv
    | store s τ => exact (typed_some hv).1
    | letv u =>
      rcases ts with _ | ⟨a, _ | ⟨b, _ | ⟨_, _⟩⟩⟩ <;> try cases hv
      simp only [List.map, checkDen, runDen, Option.bind_eq_some_iff] at hv ⊢
      obtain ⟨x, h1, h2⟩ := hv
      exact ⟨x, ih a (by simp) _ _ _ h1, ih b (by simp) _ _ _ h2⟩
    | assertEq =>
      rcases ts with _ | ⟨a, l⟩ <;> try cases hv
      simp only [List.map_cons, checkDen, runDen, assertOf, Option.bind_eq_some_iff] at hv ⊢
      obtain ⟨ns, h1, h2⟩ := hv
      refine ⟨ns, many _ rfl l (by intro t ht; simp [ht]) ns h1, ?_⟩
      cases ns with
      | nil => cases h2
      | cons n ns =>
        simp only at h2 ⊢
        split at h2
        · rename_i hc
          rw [if_pos hc]
          exact ih a (by simp) _ _ _ h2
        · cases h2
    | dim k =>
      rcases ts with _ | ⟨a, _ | ⟨b, l⟩⟩ <;> try cases hv
      simp only [List.map, checkDen, runDen, dimOf, Option.bind_eq_some_iff] at hv ⊢
      obtain ⟨n, ⟨x, h1, h2⟩, h3⟩ := hv
      exact ⟨n, ⟨x, ih a (by simp) _ _ _ h1, h2⟩, h3⟩
    | get =>
      rcases ts with _ | ⟨a, _ | ⟨b, _ | ⟨_, _⟩⟩⟩ <;> try cases hv
      simp only [List.map, checkDen] at hv
      split at hv
      · obtain ⟨vs, n, h1, h2, h3⟩ := getOf_some hv
        obtain ⟨e1, e2⟩ := two a b rfl
        simp only [List.map, runDen, getOf, e1 _ h1, e2 _ h2, Option.bind_some, Val.asVec, Val.asInt, Val.int, h3]
      · cases hv
    | concat =>
      rcases ts with _ | ⟨a, _ | ⟨b, _ | ⟨_, _⟩⟩⟩ <;> try cases hv
      simp only [List.map, checkDen, runDen, concatOf, Option.bind_eq_some_iff] at hv ⊢
      obtain ⟨vs, ⟨x, h1, h2⟩, ws, ⟨y, h3, h4⟩, h5⟩ := hv
      exact ⟨vs, ⟨x, ih a (by simp) _ _ _ h1, h2⟩, ws, ⟨y, ih b (by simp) _ _ _ h3, h4⟩, h5⟩
    | cons =>
      rcases ts with _ | ⟨a, _ | ⟨b, _ | ⟨_, _⟩⟩⟩ <;> try cases hv
      simp only [List.map, checkDen, runDen, consOf, Option.bind_eq_some_iff] at hv ⊢
      obtain ⟨x, h1, y, h2, h3⟩ := hv
      exact ⟨x, ih a (by simp) _ _ _ h1, y, ih b (by simp) _ _ _ h2, h3⟩
    | fst =>
      rcases ts with _ | ⟨a, _ | ⟨b, l⟩⟩ <;> try cases hv
      simp only [List.map, checkDen, runDen, fstOf, Option.bind_eq_some_iff] at hv ⊢
      obtain ⟨x, h1, h2⟩ := hv
      exact ⟨x, ih a (by simp) _ _ _ (typed_some h1).1, h2⟩
    | snd =>
      rcases ts with _ | ⟨a, _ | ⟨b, l⟩⟩ <;> try cases hv
      simp only [List.map, checkDen, runDen, sndOf, Option.bind_eq_some_iff] at hv ⊢
      obtain ⟨x, h1, h2⟩ := hv
      exact ⟨x, ih a (by simp) _ _ _ (typed_some h1).1, h2⟩
    | vec i =>
      rcases ts with _ | ⟨n, _ | ⟨b, _ | ⟨_, _⟩⟩⟩ <;> try cases hv
      simp only [List.map, checkDen, Option.bind_eq_some_iff] at hv
      obtain ⟨m, ⟨x, h1, h2⟩, hv⟩ := hv
      split at hv
      · simp only [List.map, runDen, vecOf, ih n (by simp) _ _ _ h1, Option.bind_some, h2]
        simp only [vecOf, Option.bind_some, Val.asInt, Val.int, Option.bind_eq_some_iff] at hv ⊢
        obtain ⟨vs, h3, h4⟩ := hv
        exact ⟨vs, mapOpt_mono (fun k _ w hw => ih b (by simp) _ _ _ hw) h3, h4⟩
      · cases hv
    | fold c a =>
      rcases ts with _ | ⟨n, _ | ⟨z, _ | ⟨b, _ | ⟨_, _⟩⟩⟩⟩ <;> try cases hv
      simp only [List.map, checkDen, runDen, foldOf, Option.bind_eq_some_iff] at hv ⊢
      obtain ⟨m, ⟨x, h1, h2⟩, y, h3, h4⟩ := hv
      exact ⟨m, ⟨x, ih n (by simp) _ _ _ h1, h2⟩, y, ih z (by simp) _ _ _ h3,
        loopOpt_mono (fun k _ u u' hu => ih b (by simp) _ _ _ hu) h4⟩
    | reduce x y =>
      rcases ts with _ | ⟨z, _ | ⟨b, vs⟩⟩ <;> try cases hv
      simp only [List.map_cons, checkDen] at hv
      split at hv
      swap
      · cases hv
      rename_i hB
      simp only [Option.bind_eq_some_iff, reduceCheck] at hv
      obtain ⟨a, h1, rows, h2, hv⟩ := hv
      split at hv
      · cases hv
      simp only [Option.bind_eq_some_iff] at hv
      obtain ⟨t, -, w, h3, h4⟩ := hv
      split at h4
      swap
      · cases h4
      cases h4
      have hrows : rowsOf ((vs.map (run I)).map (· env)) = some rows := by
        unfold rowsOf at h2 ⊢
        simp only [Option.bind_eq_some_iff] at h2 ⊢
        obtain ⟨ls, h5, h6⟩ := h2
        refine ⟨ls, many _ rfl vs (by intro t ht; simp [ht]) ls ?_, h6⟩
        simpa only [List.map_map, Function.comp_def] using h5
      simp only [List.map_cons, runDen, ih z (by simp) _ _ _ h1]
      rw [reduceOf_rows hrows]
      refine loopOpt_mono (fun q _ p w hw => ?_) h3
      rw [← ih b (by simp) _ _ _ hw]
      refine run_absent b _ _ hB.2 fun s' hs' => ?_
      unfold Env.set
      split
      · rfl
      · split
        · rfl
        · rfl
    | op f =>
      simp only [checkDen, runDen, opOf, Option.bind_eq_some_iff] at hv ⊢
      obtain ⟨ss, h1, h2⟩ := hv
      exact ⟨ss, many _ rfl ts (by simp) ss h1, h2⟩
    | ext fn τ =>
      obtain ⟨ws, h1, -, h2, -⟩ := extCheck_some hv
      simp only [runDen, extOf, Option.bind_eq_some_iff]
      exact ⟨ws, many _ rfl ts (by simp) ws (by simpa only [List.map_map, Function.comp_def] using h1), h2⟩

end Verif.Codegen
