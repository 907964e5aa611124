import Verif.Yarr.Sem
import Verif.Array.Shape

/-! Array code evaluates to arrays of the ranks its static type claims. -/

set_option linter.unusedSectionVars false

namespace Verif.Yarr
open Verif.Term Verif.Phi Verif.Arr
variable {F : Type}

/-- The value is an array (or tuple of arrays) of the ranks in the type. -/
def ValRank (v : YVal F) (τ : PTy) : Prop := v.arrs.map NArr.rank = τ.map Phi.Arr.rank

/-- Types of variables. -/
abbrev Ctx := Nat → Option PTy

/-- A context with one more variable. -/
def Ctx.set (Γ : Ctx) (v : Nat) (τ : Option PTy) : Ctx := fun w => if w = v then τ else Γ w

/-- The values have the ranks of the types. -/
def RankArgs (τs : List (Option PTy)) (args : List (YVal F)) : Prop :=
  List.Forall₂ (fun v t => ∀ τ, t = some τ → ValRank v τ) args τs

/-- One node of `Declared`. -/
def declStep (J : YExt F) : Head F → List (YExpr F × (Ctx → Prop)) → Ctx → Prop
  | .const v τ, _, _ => ValRank v τ
  | .var v τ, _, Γ => Γ v = some τ
  | .letv v, [(b, pb), (_, pe)], Γ => pb Γ ∧ pe (Γ.set v (typeOf b))
  | .fold c a, [(_, pn), (z, pz), (_, pb)], Γ =>
    pn Γ ∧ pz Γ ∧ pb ((Γ.set a (typeOf z)).set c (some [⟨0, .int⟩]))
  | .reduce x y _, [(_, pz), (b, pb), (vs, pv)], Γ =>
    pz Γ ∧ pv Γ ∧ typeOf vs = typeOf b ∧ pb ((Γ.set x (typeOf b)).set y (typeOf b))
  | .ext fn τ, ps, Γ => (∀ p ∈ ps, p.2 Γ) ∧
    ∀ args r, RankArgs (ps.map fun p => typeOf p.1) args → J fn args = some r → ValRank r τ
  | _, ps, Γ => ∀ p ∈ ps, p.2 Γ

/-- Every variable occurs with the type of its binder (or, if free, of the context); constants and
external functions have the types written on them. -/
def Declared (J : YExt F) (e : YExpr F) : Ctx → Prop := para (declStep J) e

theorem declared_node (J : YExt F) (h : Head F) (ts : List (YExpr F)) :
    Declared J (node h ts) = declStep J h (ts.map (fun t => (t, Declared J t))) := para_node _ _ _

/-- The environment holds values of the ranks in the context. -/
def EnvRank (Γ : Ctx) (env : Env (YVal F)) : Prop :=
  ∀ v τ x, Γ v = some τ → env (.var v) = some x → ValRank x τ

theorem EnvRank.set {Γ : Ctx} {env : Env (YVal F)} (h : EnvRank Γ env) {v : Nat} {τ : PTy} {x : YVal F}
    (hx : ValRank x τ) : EnvRank (Γ.set v (some τ)) (env.set (.var v) (some x)) := by
  intro w σ y hΓ he
  simp only [Ctx.set] at hΓ
  simp only [Env.set, Sym.var.injEq] at he
  split at hΓ
  · rename_i hw
    rw [if_pos hw] at he
    cases hΓ; cases he; exact hx
  · rename_i hw
    rw [if_neg hw] at he
    exact h w σ y hΓ he

theorem valRank_arr {a : A F} {b : Phi.Arr} : ValRank (.arr a) [b] ↔ a.rank = b.rank := by
  simp [ValRank, YVal.arrs]

theorem mapOpt_eq_forall₂ {α β : Type} {f : α → Option β} {l : List α} {bs : List β} :
    mapOpt f l = some bs ↔ List.Forall₂ (fun a b => f a = some b) l bs := by
  induction l generalizing bs with
  | nil => cases bs <;> simp [mapOpt]
  | cons a l ih =>
    simp only [mapOpt, Option.bind_eq_some_iff, Option.some.injEq]
    constructor
    · rintro ⟨b, hb, bs', hbs, rfl⟩
      exact .cons hb (ih.1 hbs)
    · rintro (_ | ⟨hb, hbs⟩)
      exact ⟨_, hb, _, ih.2 hbs, rfl⟩

theorem valRank_of_asArr {v : YVal F} {τ : PTy} {a : A F} (h : v.asArr = some a) (hv : ValRank v τ) :
    ∃ b, τ = [b] ∧ a.rank = b.rank := by
  cases v with
  | tup as => cases h
  | arr a' =>
    cases h
    simp only [ValRank, YVal.arrs, List.map_cons, List.map_nil] at hv
    rcases τ with _ | ⟨b, _ | ⟨c, τ⟩⟩ <;> simp at hv
    exact ⟨b, rfl, hv⟩

theorem single_eq {τ : PTy} {b : Phi.Arr} (h : single τ = some b) : τ = [b] := by
  rcases τ with _ | ⟨c, _ | ⟨d, τ⟩⟩ <;> simp [single] at h
  rw [h]

theorem deltaTy_single {d : Int} {a : Phi.Arr} {τ : PTy} (h : deltaTy d [a] = some τ) :
    ∃ b, τ = [b] ∧ (b.rank : Int) = a.rank + d := by
  simp only [deltaTy, mapOpt, Option.bind_eq_some_iff, Option.some.injEq] at h
  obtain ⟨b, hb, bs, rfl, rfl⟩ := h
  refine ⟨b, rfl, ?_⟩
  unfold deltaArr at hb
  split_ifs at hb with hc
  cases hb
  simp only
  omega

/-- The operands' values have the ranks of the operands' types. -/
def AllRank (vs : List (Option (YVal F))) (τs : List (Option PTy)) : Prop :=
  List.Forall₂ (fun v t => ∀ x τ, v = some x → t = some τ → ValRank x τ) vs τs

theorem AllRank.arrs {vs : List (Option (YVal F))} {τs : List (Option PTy)} (h : AllRank vs τs)
    {as : List (A F)} {bs : List Phi.Arr} (ha : arrsOf vs = some as)
    (hb : mapOpt (fun t : Option PTy => t.bind single) τs = some bs) :
    as.map NArr.rank = bs.map Phi.Arr.rank := by
  induction h generalizing as bs with
  | nil => cases ha; cases hb; rfl
  | cons h1 _ ih =>
    simp only [arrsOf, mapOpt, Option.bind_eq_some_iff, Option.some.injEq] at ha hb
    obtain ⟨a, ⟨x, hx, hxa⟩, as', has, rfl⟩ := ha
    obtain ⟨b, ⟨τ, hτ, hτb⟩, bs', hbs, rfl⟩ := hb
    have hr := h1 x τ hx hτ
    rw [single_eq hτb] at hr
    cases x with
    | tup _ => cases hxa
    | arr a' =>
      cases hxa
      rw [List.map_cons, List.map_cons, valRank_arr.1 hr, ih has hbs]

theorem AllRank.args {vs : List (Option (YVal F))} {τs : List (Option PTy)} (h : AllRank vs τs)
    {as : List (YVal F)} (ha : mapOpt (fun v => v) vs = some as) : RankArgs τs as := by
  unfold RankArgs
  induction h generalizing as with
  | nil => cases ha; exact .nil
  | cons h1 _ ih =>
    simp only [mapOpt, Option.bind_eq_some_iff, Option.some.injEq] at ha
    obtain ⟨a, hx, as', has, rfl⟩ := ha
    exact .cons (fun τ hτ => h1 _ _ hx hτ) (ih has)

theorem arr1_eq {f : A F → Option (A F)} {v : Option (YVal F)} {x : YVal F} (h : arr1 f v = some x) :
    ∃ a r, v = some (.arr a) ∧ f a = some r ∧ x = .arr r := by
  simp only [arr1, Option.bind_eq_some_iff, Option.some.injEq] at h
  obtain ⟨a, ⟨w, hw, hwa⟩, r, hr, rfl⟩ := h
  cases w with
  | tup _ => cases hwa
  | arr a' => cases hwa; exact ⟨_, _, hw, hr, rfl⟩

theorem rank_unary {f : A F → Option (A F)} {v : Option (YVal F)} {x : YVal F} {b : Phi.Arr}
    (hv : ∀ x τ, v = some x → some [b] = some τ → ValRank x τ) (h : arr1 f v = some x) :
    ∃ a r, f a = some r ∧ a.rank = b.rank ∧ x = .arr r := by
  obtain ⟨a, r, h1, h2, rfl⟩ := arr1_eq h
  exact ⟨a, r, h2, valRank_arr.1 (hv _ _ h1 rfl), rfl⟩

variable [FloatOps F]

/-- One node that binds nothing. -/
theorem rank_step (J : YExt F) (h : Head F) (vs : List (Option (YVal F))) (τs : List (Option PTy))
    (hall : AllRank vs τs) (hc : h.captured = ∅) (hs : h.symbol = none)
    (hk : ∀ v τ, h = .const v τ → ValRank v τ)
    (hJ : ∀ fn τ, h = .ext fn τ → ∀ args r, RankArgs τs args → J fn args = some r → ValRank r τ)
    (env : Env (YVal F)) {x : YVal F} {τ : PTy} (ht : typeStep h τs = some τ)
    (hx : den J h (vs.map (fun v _ => v)) env = some x) : ValRank x τ := by
  have hid : (vs.map (fun (v : Option (YVal F)) (_ : Env (YVal F)) => v)).map (· env) = vs := by
    simp [List.map_map, Function.comp_def]
  cases h with
  | const v σ =>
    rcases hall with _ | ⟨_, _⟩ <;> simp only [typeStep, reduceCtorEq, Option.some.injEq] at ht
    cases hx; subst ht; exact hk _ _ rfl
  | var v σ => simp [Head.symbol] at hs
  | letv v => simp [Head.captured] at hc
  | fold c a => simp [Head.captured] at hc
  | reduce x y a => simp [Head.captured] at hc
  | dim axis =>
    rcases hall with _ | ⟨h1, _ | ⟨h2, h3⟩⟩ <;> try (simp [typeStep] at ht; done)
    rename_i v t
    simp only [typeStep] at ht
    split at ht <;> simp only [reduceCtorEq, List.cons.injEq] at *
    rename_i a he
    obtain ⟨rfl, -⟩ := he
    split_ifs at ht with hax
    cases ht
    obtain ⟨a', r, h2, -, rfl⟩ := rank_unary h1 hx
    simp only [Option.map_eq_some_iff] at h2
    obtain ⟨n, -, rfl⟩ := h2
    exact valRank_arr.2 rfl
  | range =>
    rcases hall with _ | ⟨h1, _ | ⟨h2, h3⟩⟩ <;> try (simp [typeStep] at ht; done)
    simp only [typeStep] at ht
    split at ht <;> simp only [reduceCtorEq, List.cons.injEq] at *
    rename_i a he
    obtain ⟨rfl, -⟩ := he
    split_ifs at ht with hax
    cases ht
    obtain ⟨a', r, h2, -, rfl⟩ := rank_unary h1 hx
    simp only [Option.bind_eq_some_iff] at h2
    obtain ⟨n, -, h2⟩ := h2
    rw [valRank_arr, NArr.rank_mapM? h2]; rfl
  | transpose perm =>
    rcases hall with _ | ⟨h1, _ | ⟨h2, h3⟩⟩ <;> try (simp [typeStep] at ht; done)
    simp only [typeStep] at ht
    split at ht <;> simp only [reduceCtorEq, List.cons.injEq] at *
    rename_i a he
    obtain ⟨rfl, -⟩ := he
    split_ifs at ht with hax
    cases ht
    obtain ⟨a', r, h2, h3, rfl⟩ := rank_unary h1 hx
    rw [valRank_arr, NArr.rank_transpose h2, h3]
  | squeeze axes =>
    rcases hall with _ | ⟨h1, _ | ⟨h2, h3⟩⟩ <;> try (simp [typeStep] at ht; done)
    rename_i v t
    rcases t with _ | _ | ⟨a, _ | ⟨b, l⟩⟩ <;> try (simp [typeStep] at ht; done)
    simp only [typeStep] at ht
    split_ifs at ht with hax
    obtain ⟨b, rfl, hb⟩ := deltaTy_single ht
    obtain ⟨a', r, h2, h3, rfl⟩ := rank_unary h1 hx
    have := NArr.rank_squeeze h2
    rw [valRank_arr]; omega
  | unsqueeze axes =>
    rcases hall with _ | ⟨h1, _ | ⟨h2, h3⟩⟩ <;> try (simp [typeStep] at ht; done)
    rename_i v t
    rcases t with _ | _ | ⟨a, _ | ⟨b, l⟩⟩ <;> try (simp [typeStep] at ht; done)
    simp only [typeStep] at ht
    split_ifs at ht with hax
    obtain ⟨b, rfl, hb⟩ := deltaTy_single ht
    obtain ⟨a', r, h2, h3, rfl⟩ := rank_unary h1 hx
    have := NArr.rank_unsqueeze h2
    rw [valRank_arr]; omega
  | reduceAxis k axis =>
    rcases hall with _ | ⟨h1, _ | ⟨h2, h3⟩⟩ <;> try (simp [typeStep] at ht; done)
    simp only [typeStep] at ht
    split at ht <;> simp only [reduceCtorEq, List.cons.injEq] at *
    rename_i a he
    obtain ⟨rfl, -⟩ := he
    split_ifs at ht with hax
    obtain ⟨b, rfl, hb⟩ := deltaTy_single ht
    obtain ⟨a', r, h2, h3, rfl⟩ := rank_unary h1 hx
    have := NArr.rank_reduceAxis h2
    rw [valRank_arr]; omega
  | cast k =>
    rcases hall with _ | ⟨h1, _ | ⟨h2, h3⟩⟩ <;> try (simp [typeStep] at ht; done)
    simp only [typeStep] at ht
    split at ht <;> simp only [reduceCtorEq, List.cons.injEq] at *
    rename_i a he
    obtain ⟨rfl, -⟩ := he
    cases ht
    obtain ⟨a', r, h2, h3, rfl⟩ := rank_unary h1 hx
    rw [valRank_arr, NArr.rank_mapM? h2, h3]
  | untuple i k =>
    rcases hall with _ | ⟨h1, _ | ⟨h2, h3⟩⟩ <;> try (simp [typeStep] at ht; done)
    rename_i v t
    cases t with
    | none => simp [typeStep] at ht
    | some σ =>
      simp only [typeStep] at ht
      split_ifs at ht with hl
      simp only [Option.map_eq_some_iff] at ht
      obtain ⟨b, hb, rfl⟩ := ht
      simp only [List.map, den, Option.bind_eq_some_iff] at hx
      obtain ⟨w, hw, hx⟩ := hx
      cases w with
      | arr _ => cases hx
      | tup as =>
        simp only [Option.map_eq_some_iff] at hx
        obtain ⟨a, ha, rfl⟩ := hx
        have := h1 _ _ hw rfl
        simp only [ValRank, YVal.arrs] at this
        have e := congrArg (fun l : List Nat => l[i]?) this
        simp only [List.getElem?_map, ha, hb, Option.map_some, Option.some.injEq] at e
        rw [valRank_arr, e]
  | concat axis =>
    rcases hall with _ | ⟨h1, h2⟩ <;> try (simp [typeStep] at ht; done)
    simp only [typeStep] at ht
    split at ht <;> simp only [reduceCtorEq, List.cons.injEq] at *
    rename_i a ts he
    obtain ⟨rfl, rfl⟩ := he
    split_ifs at ht with hax
    cases ht
    simp only [List.map_cons, den, Option.bind_eq_some_iff, Option.some.injEq] at hx
    obtain ⟨as, has, r, hr, rfl⟩ := hx
    simp only [arrsOf, mapOpt, Option.bind_eq_some_iff, Option.some.injEq] at has
    obtain ⟨a', ⟨w, hw, hwa⟩, as', -, rfl⟩ := has
    have := h1 _ _ hw rfl
    cases w with
    | tup _ => cases hwa
    | arr _ => cases hwa; rw [valRank_arr, NArr.rank_concat hr, valRank_arr.1 this]
  | gather axis =>
    rcases hall with _ | ⟨h1, _ | ⟨h2, _ | ⟨h3, h4⟩⟩⟩ <;> try (simp [typeStep] at ht; done)
    simp only [typeStep] at ht
    split at ht <;> simp only [reduceCtorEq, List.cons.injEq] at *
    rename_i a b he
    obtain ⟨rfl, rfl, -⟩ := he
    split_ifs at ht with hax
    cases ht
    simp only [List.map, den, Option.bind_eq_some_iff] at hx
    obtain ⟨a', ⟨w, hw, hwa⟩, hx⟩ := hx
    obtain ⟨b', r, hb, hr, rfl⟩ := arr1_eq hx
    simp only [Option.bind_eq_some_iff] at hr
    obtain ⟨ix, -, hr⟩ := hr
    have := h1 _ _ hw rfl
    cases w with
    | tup _ => cases hwa
    | arr _ => cases hwa; rw [valRank_arr, NArr.rank_gather hr, valRank_arr.1 this]
  | repeat_ axis =>
    rcases hall with _ | ⟨h1, _ | ⟨h2, _ | ⟨h3, h4⟩⟩⟩ <;> try (simp [typeStep] at ht; done)
    simp only [typeStep] at ht
    split at ht <;> simp only [reduceCtorEq, List.cons.injEq] at *
    rename_i a b he
    obtain ⟨rfl, rfl, -⟩ := he
    split_ifs at ht with hax
    cases ht
    simp only [List.map, den, Option.bind_eq_some_iff] at hx
    obtain ⟨n, -, hx⟩ := hx
    obtain ⟨a', r, hr, hra, rfl⟩ := rank_unary h2 hx
    rw [valRank_arr, NArr.rank_repeat hr, hra]
  | take items =>
    rcases hall with _ | ⟨h1, h2⟩ <;> try (simp [typeStep] at ht; done)
    rename_i v t vs ts
    rcases t with _ | _ | ⟨a, _ | ⟨b, l⟩⟩ <;> try (simp [typeStep] at ht; done)
    simp only [typeStep] at ht
    rw [ite_eq_iff] at ht
    obtain ⟨hax, ht⟩ | ⟨-, ht⟩ := ht
    swap
    · cases ht
    simp only [Option.bind_eq_some_iff] at ht
    obtain ⟨bs, hbs, ht⟩ := ht
    split_ifs at ht with hit0
    obtain ⟨b, rfl, hb⟩ := deltaTy_single ht
    simp only [List.map_cons, den, Option.bind_eq_some_iff] at hx
    obtain ⟨cs, hcs, hx⟩ := hx
    obtain ⟨a', r, hr, hra, rfl⟩ := rank_unary h1 hx
    simp only [List.map_map, Function.comp_def, List.map_id'] at hcs
    have hrk := AllRank.arrs h2 hcs hbs
    unfold takeOf at hr
    split at hr <;> try (cases hr)
    split_ifs at hr with hit
    rename_i c
    simp only [Option.bind_eq_some_iff] at hr
    obtain ⟨ix, hix, hr⟩ := hr
    have h4 := NArr.rank_take hr
    have h5 := NArr.rank_mapM? hix
    have h6 : ts.length = 1 := by
      have := mapOpt_length hbs
      have := congrArg List.length hrk
      simp at this
      omega
    rw [← hrk] at hb
    simp at hb
    rw [valRank_arr]
    omega
  | slice starts stops =>
    rcases hall with _ | ⟨h1, h2⟩ <;> try (simp [typeStep] at ht; done)
    simp only [typeStep] at ht
    split at ht <;> simp only [reduceCtorEq, List.cons.injEq] at *
    rename_i a ts he
    obtain ⟨rfl, rfl⟩ := he
    split_ifs at ht with hax
    cases ht
    simp only [List.map_cons, den, Option.bind_eq_some_iff] at hx
    obtain ⟨cs, hcs, hx⟩ := hx
    obtain ⟨a', r, hr, hra, rfl⟩ := rank_unary h1 hx
    simp only [sliceOf, Option.bind_eq_some_iff] at hr
    obtain ⟨p, -, q, -, hr⟩ := hr
    split_ifs at hr
    simp only [Option.bind_eq_some_iff] at hr
    obtain ⟨ss, -, es, -, hr⟩ := hr
    rw [valRank_arr, NArr.rank_slice hr, hra]
  | pad starts stops =>
    rcases hall with _ | ⟨h1, h2⟩ <;> try (simp [typeStep] at ht; done)
    simp only [typeStep] at ht
    split at ht <;> simp only [reduceCtorEq, List.cons.injEq] at *
    rename_i a ts he
    obtain ⟨rfl, rfl⟩ := he
    split_ifs at ht with hax
    cases ht
    simp only [List.map_cons, den, Option.bind_eq_some_iff] at hx
    obtain ⟨cs, hcs, hx⟩ := hx
    obtain ⟨a', r, hr, hra, rfl⟩ := rank_unary h1 hx
    simp only [padOf, Option.bind_eq_some_iff] at hr
    obtain ⟨p, -, q, -, hr⟩ := hr
    split_ifs at hr
    simp only [Option.bind_eq_some_iff] at hr
    obtain ⟨ss, -, es, -, hr⟩ := hr
    rw [valRank_arr, NArr.rank_pad hr, hra]
  | elem o ip =>
    simp only [typeStep, Option.bind_eq_some_iff] at ht
    obtain ⟨bs, hbs, ht⟩ := ht
    split_ifs at ht with hl
    split at ht <;> try (cases ht; done)
    rename_i k hk'
    cases ht
    simp only [den, hid, Option.bind_eq_some_iff, Option.some.injEq] at hx
    obtain ⟨as, has, r, hr, rfl⟩ := hx
    rw [valRank_arr, NArr.rank_zipAll hr, AllRank.arrs hall has hbs]
  | tuple =>
    simp only [typeStep] at ht
    simp only [den, hid, Option.bind_eq_some_iff, Option.some.injEq] at hx
    obtain ⟨as, has, rfl⟩ := hx
    exact AllRank.arrs hall has ht
  | einsum subs res =>
    simp only [typeStep, Option.bind_eq_some_iff] at ht
    obtain ⟨bs, hbs, ht⟩ := ht
    split_ifs at ht with hl
    cases ht
    simp only [den, hid, Option.bind_eq_some_iff, Option.some.injEq] at hx
    obtain ⟨as, has, r, hr, rfl⟩ := hx
    rw [valRank_arr, NArr.rank_einsum hr]
  | ext fn σ =>
    simp only [typeStep] at ht
    split_ifs at ht
    cases ht
    simp only [den, Option.bind_eq_some_iff] at hx
    obtain ⟨as, has, hr⟩ := hx
    rw [hid] at has
    exact hJ _ _ rfl _ _ (hall.args has) hr

theorem loopOpt_inv {α β : Type} {P : β → Prop} {f : β → α → Option β} (hf : ∀ b a c, P b → f b a = some c → P c)
    {b c : β} {l : List α} (hb : P b) (h : loopOpt f b l = some c) : P c := by
  induction l generalizing b with
  | nil => cases h; exact hb
  | cons a l ih =>
    simp only [loopOpt, Option.bind_eq_some_iff] at h
    obtain ⟨d, hd, h⟩ := h
    exact ih (hf _ _ _ hb hd) h

theorem ranks_mapOpt {f : A F → Option (A F)} {d : Int} (hf : ∀ a b, f a = some b → (b.rank : Int) = a.rank + d)
    {as bs : List (A F)} (h : mapOpt f as = some bs) :
    bs.map (fun b => (b.rank : Int)) = as.map (fun a => (a.rank : Int) + d) := by
  rw [mapOpt_eq_forall₂] at h
  induction h with
  | nil => rfl
  | cons h1 _ ih => rw [List.map_cons, List.map_cons, ih, hf _ _ h1]

theorem rank_oneSlice {axis k : Nat} {a b : A F} (h : oneSlice axis k a = some b) : b.rank = a.rank := by
  unfold oneSlice at h
  split_ifs at h
  rw [NArr.rank, NArr.shape_of_reindex h]; simp [NArr.rank]

theorem rank_stride {axis k n : Nat} {a b : A F} (h : stride axis k n a = some b) : b.rank = a.rank := by
  unfold stride at h
  split_ifs at h
  rw [NArr.rank, NArr.shape_of_reindex h]; simp [NArr.rank]

theorem ranks_same {f : A F → Option (A F)} (hf : ∀ a b, f a = some b → b.rank = a.rank)
    {as bs : List (A F)} (h : mapOpt f as = some bs) : bs.map NArr.rank = as.map NArr.rank := by
  rw [mapOpt_eq_forall₂] at h
  induction h with
  | nil => rfl
  | cons h1 _ ih => rw [List.map_cons, List.map_cons, ih, hf _ _ h1]

/-- The loop of a reduction keeps the ranks. -/
theorem ranks_redLoop {xy : List (A F) → List (A F) → Option (List (A F))} {axis : Nat} {rs : List Nat}
    (hxy : ∀ l r z, l.map NArr.rank = rs → r.map NArr.rank = rs → xy l r = some z → z.map NArr.rank = rs)
    (fuel n : Nat) (acc vals out : List (A F)) (ha : acc.map NArr.rank = rs) (hv : vals.map NArr.rank = rs)
    (h : redLoop xy axis fuel n acc vals = some out) : out.map NArr.rank = rs := by
  induction fuel generalizing n acc vals with
  | zero => cases h
  | succ fuel ih =>
    unfold redLoop at h
    split at h
    · simp only [Option.bind_eq_some_iff] at h
      obtain ⟨acc', hacc, l, hl, r, hr, v', hv', h⟩ := h
      have hl' := (ranks_same (fun _ _ => rank_stride) hl).trans hv
      have hr' := (ranks_same (fun _ _ => rank_stride) hr).trans hv
      refine ih _ _ _ ?_ (hxy _ _ _ hl' hr' hv') h
      split at hacc
      · simp only [Option.bind_eq_some_iff] at hacc
        obtain ⟨o, ho, hacc⟩ := hacc
        exact hxy _ _ _ ((ranks_same (fun _ _ => rank_oneSlice) ho).trans hv) ha hacc
      · cases hacc; exact ha
    · split at h
      · simp only [Option.bind_eq_some_iff] at h
        obtain ⟨o, ho, h⟩ := h
        exact hxy _ _ _ ((ranks_same (fun _ _ => rank_oneSlice) ho).trans hv) ha h
      · cases h; exact ha

theorem ofArrs_arrs {b : Bool} {as : List (A F)} {v : YVal F} (h : ofArrs b as = some v) : v.arrs = as := by
  unfold ofArrs at h
  split at h <;> cases h <;> rfl

theorem toArrs_arrs {b : Bool} {as : List (A F)} {v : YVal F} (h : toArrs b v = some as) : v.arrs = as := by
  cases v <;> simp only [toArrs] at h <;> split at h <;> cases h <;> rfl

/-- A reduction gives a value of the ranks of the initial value. -/
theorem rank_reduceOf {axis : Nat} {init vecs x : YVal F} {xy : YVal F → YVal F → Option (YVal F)} {rs : List Nat}
    (hxy : ∀ l r z, l.arrs.map NArr.rank = rs → r.arrs.map NArr.rank = rs → xy l r = some z →
      z.arrs.map NArr.rank = rs)
    (hi : init.arrs.map (fun a => a.rank + 1) = rs) (hv : vecs.arrs.map NArr.rank = rs)
    (h : reduceOf axis init vecs xy = some x) : x.arrs.map (fun a => a.rank + 1) = rs := by
  unfold reduceOf at h
  simp only [Option.bind_eq_some_iff] at h
  obtain ⟨acc, hacc, h⟩ := h
  split at h
  swap
  · cases h
  simp only [Option.bind_eq_some_iff] at h
  obtain ⟨acc1, h1, acc2, h2, acc3, h3, h⟩ := h
  rw [toArrs_arrs hacc] at hi
  have ha1 : acc1.map NArr.rank = rs := by
    have := ranks_mapOpt (d := 1) (fun a b hab => by simp [NArr.rank_unsqueeze hab]) h1
    have e : (acc1.map NArr.rank).map (fun n : Nat => (n : Int)) = rs.map (fun n : Nat => (n : Int)) := by
      rw [← hi, List.map_map, List.map_map]; simpa [Function.comp_def] using this
    exact List.map_injective_iff.2 (fun a b h => by exact_mod_cast h) e
  have ha2 := ranks_redLoop (rs := rs) (fun l r z hl hr hz => by
    simp only [Option.bind_eq_some_iff] at hz
    obtain ⟨x1, hx1, y1, hy1, z1, hz1, hz⟩ := hz
    rw [← toArrs_arrs hz]
    exact hxy x1 y1 z1 (by rw [ofArrs_arrs hx1]; exact hl) (by rw [ofArrs_arrs hy1]; exact hr) hz1)
    _ _ _ _ _ ha1 hv h2
  rw [ofArrs_arrs h, ← ha2]
  rw [mapOpt_eq_forall₂] at h3
  clear h h2 ha2
  induction h3 with
  | nil => rfl
  | cons h1 _ ih =>
    have := NArr.rank_squeeze h1
    rw [List.map_cons, List.map_cons, ih]
    congr 1

theorem deltaTy_ranks {τ σ : PTy} (h : deltaTy (-1) τ = some σ) :
    σ.map (fun a => a.rank + 1) = τ.map Phi.Arr.rank := by
  rw [deltaTy, mapOpt_eq_forall₂] at h
  induction h with
  | nil => rfl
  | cons h1 _ ih =>
    rw [List.map_cons, List.map_cons, ih]
    unfold deltaArr at h1
    split_ifs at h1 with hc
    cases h1
    simp only [List.cons.injEq, and_true]
    omega

theorem valRank_succ {x : YVal F} {σ τ : PTy} (h : deltaTy (-1) τ = some σ) :
    ValRank x σ ↔ x.arrs.map (fun a => a.rank + 1) = τ.map Phi.Arr.rank := by
  rw [← deltaTy_ranks h, ValRank]
  have e1 : x.arrs.map (fun a => a.rank + 1) = (x.arrs.map NArr.rank).map (· + 1) := by simp
  have e2 : σ.map (fun a => a.rank + 1) = (σ.map Phi.Arr.rank).map (· + 1) := by simp
  rw [e1, e2]
  constructor
  · intro h; rw [h]
  · intro h; exact List.map_injective_iff.2 (fun a b h => by simpa using h) h

theorem typeStep_fold {c a : Nat} {n z b : Option PTy} {τ : PTy}
    (h : typeStep (.fold c a : Head F) [n, z, b] = some τ) :
    ∃ σ, z = some σ ∧ b = some τ ∧ σ = τ := by
  rcases n with _ | _ | ⟨n, _ | ⟨_, _⟩⟩ <;> rcases z with _ | z <;> rcases b with _ | b <;>
    simp [typeStep] at h
  exact ⟨z, rfl, congrArg some h.2, h.1.2.trans h.2⟩

theorem typeStep_reduce {x y axis : Nat} {z b vs : Option PTy} {τ : PTy}
    (h : typeStep (.reduce x y axis : Head F) [z, b, vs] = some τ) :
    ∃ β ρ, z = some τ ∧ b = some β ∧ vs = some ρ ∧ deltaTy (-1) β = some τ := by
  rcases z with _ | z <;> rcases b with _ | b <;> rcases vs with _ | vs <;> simp [typeStep] at h
  exact ⟨b, vs, congrArg some h.2, rfl, rfl, by rw [← h.2]; exact h.1.1⟩

/-- Evaluation gives a value of the claimed ranks. -/
theorem eval_rank (J : YExt F) (e : YExpr F) : ∀ (Γ : Ctx) (env : Env (YVal F)) (τ : PTy) (x : YVal F),
    Declared J e Γ → typeOf e = some τ → EnvRank Γ env → eval J e env = some x → ValRank x τ := by
  induction e using ind with
  | step h ts ih =>
    intro Γ env τ x hd ht henv hx
    rw [declared_node] at hd
    rw [typeOf_node] at ht
    rw [eval_node] at hx
    have key : h.captured = ∅ → h.symbol = none → (∀ t ∈ ts, Declared J t Γ) →
        (∀ v τ, h = .const v τ → ValRank v τ) →
        (∀ fn τ, h = .ext fn τ → ∀ args r, RankArgs (ts.map typeOf) args → J fn args = some r → ValRank r τ) →
        den J h ((ts.map (fun t => eval J t env)).map (fun v _ => v)) env = some x → ValRank x τ := by
      intro hc hs hts hk hJ hx
      refine rank_step J h _ _ ?_ hc hs hk hJ env ht hx
      rw [AllRank, List.forall₂_map_left_iff, List.forall₂_map_right_iff, List.forall₂_same]
      intro t htm x τ hx ht
      exact ih t htm Γ env τ x (hts t htm) ht henv hx
    have hl : ∀ fs : List (Env (YVal F) → Option (YVal F)), (fs.map (fun f => fun _ : Env (YVal F) => f env)).map (· env) = fs.map (· env) := by
      intro fs; simp
    cases h with
    | const v σ =>
      refine key rfl rfl ?_ ?_ (by simp) hx
      · rcases ts with _ | ⟨t, ts⟩
        · simp
        · simp [typeStep] at ht
      · intro v' τ' e; cases e; exact hd
    | var v σ =>
      rcases ts with _ | ⟨t, ts⟩
      · cases ht; exact henv v _ x hd hx
      · simp [typeStep] at ht
    | letv v =>
      rcases ts with _ | ⟨b, _ | ⟨e, _ | ⟨c, ts⟩⟩⟩ <;> try (simp [typeStep] at ht; done)
      cases hb : typeOf b with
      | none => simp [typeStep, hb] at ht
      | some σ =>
        simp only [List.map, typeStep, hb] at ht
        simp only [List.map, declStep, hb] at hd
        simp only [List.map, den, Option.bind_eq_some_iff] at hx
        obtain ⟨y, hy, hx⟩ := hx
        exact ih e (by simp) _ _ τ x hd.2 ht (henv.set (ih b (by simp) Γ env σ y hd.1 hb henv hy)) hx
    | fold c a =>
      rcases ts with _ | ⟨n, _ | ⟨z, _ | ⟨b, _ | ⟨_, ts⟩⟩⟩⟩ <;> try (simp [typeStep] at ht; done)
      obtain ⟨σ, e2, e3, hc⟩ := typeStep_fold ht
      subst hc
      simp only [List.map, declStep, e2] at hd
      simp only [List.map, den, Option.bind_eq_some_iff] at hx
      obtain ⟨k, -, y, hy, hx⟩ := hx
      refine loopOpt_inv (P := fun y => ValRank y σ) ?_ (ih z (by simp) Γ env _ y hd.2.1 e2 henv hy) hx
      intro p i q hp hq
      exact ih b (by simp) _ _ _ q hd.2.2 e3 ((henv.set hp).set (valRank_arr.2 rfl)) hq
    | reduce px py axis =>
      rcases ts with _ | ⟨z, _ | ⟨b, _ | ⟨vs, _ | ⟨_, ts⟩⟩⟩⟩ <;> try (simp [typeStep] at ht; done)
      obtain ⟨τ', ρ, e1, e2, e3, hc⟩ := typeStep_reduce ht
      simp only [List.map, declStep, e2, e3, Option.some.injEq] at hd
      obtain ⟨hdz, hdv, rfl, hdb⟩ := hd
      simp only [List.map, den, Option.bind_eq_some_iff] at hx
      obtain ⟨i, hi, v, hv, hx⟩ := hx
      rw [valRank_succ hc]
      refine rank_reduceOf ?_ ((valRank_succ hc).1 (ih z (by simp) Γ env _ i hdz e1 henv hi))
        (ih vs (by simp) Γ env _ v hdv e3 henv hv) hx
      intro l r w hl hr hw
      exact ih b (by simp) _ _ _ w hdb e2 ((henv.set hl).set hr) hw
    | ext fn σ =>
      simp only [declStep] at hd
      refine key rfl rfl (fun t htm => hd.1 _ (List.mem_map.2 ⟨t, htm, rfl⟩)) (by simp) ?_ ?_
      · intro fn' τ' e; cases e
        intro args r ha
        exact hd.2 args r (by simpa [List.map_map, Function.comp_def] using ha)
      · simpa [den, List.map_map, Function.comp_def] using hx
    | _ =>
      simp only [declStep] at hd
      refine key rfl rfl (fun t htm => hd _ (List.mem_map.2 ⟨t, htm, rfl⟩)) (by simp) (by simp) ?_
      first
        | (simpa [den, List.map_map, Function.comp_def] using hx)
        | (rcases ts with _ | ⟨t1, _ | ⟨t2, _ | ⟨t3, ts⟩⟩⟩ <;>
            first
              | (simp [den] at hx; done)
              | (simpa [den, List.map_map, Function.comp_def] using hx))

end Verif.Yarr
