import Verif.Phi.Sem

/-! Values without ragged arrays: what the reference interpreter returns if its inputs are such. -/

namespace Verif.Val
variable {S : Type}

/-- In every vector all elements have the same shape (NumPy arrays are rectangular). -/
inductive Regular : Val S → Prop
  | sc (s : S) : Regular (.sc s)
  | vec {vs : List (Val S)} : uniform vs = true → (∀ v ∈ vs, Regular v) → Regular (.vec vs)
  | pair {a b : Val S} : Regular a → Regular b → Regular (.pair a b)

mutual
/-- `Regular`, computed. -/
def regular : Val S → Bool
  | .sc _ => true
  | .vec vs => uniform vs && regularList vs
  | .pair a b => regular a && regular b
/-- `regular` for every element. -/
def regularList : List (Val S) → Bool
  | [] => true
  | v :: vs => regular v && regularList vs
end

theorem regularList_iff {vs : List (Val S)} : regularList vs = true ↔ ∀ v ∈ vs, regular v = true := by
  induction vs with
  | nil => simp [regularList]
  | cons v vs ih => simp [regularList, ih]

theorem regular_iff {v : Val S} : regular v = true ↔ Regular v := by
  induction v using Val.ind with
  | sc s => simp [regular, Regular.sc]
  | vec vs ih =>
    rw [regular, Bool.and_eq_true, regularList_iff]
    constructor
    · exact fun h => .vec h.1 fun v hv => (ih v hv).1 (h.2 v hv)
    · intro h
      cases h with
      | vec h1 h2 => exact ⟨h1, fun v hv => (ih v hv).2 (h2 v hv)⟩
  | pair a b iha ihb =>
    rw [regular, Bool.and_eq_true, iha, ihb]
    constructor
    · exact fun h => .pair h.1 h.2
    · intro h; cases h with | pair h1 h2 => exact ⟨h1, h2⟩

instance (v : Val S) : Decidable (Regular v) := decidable_of_iff _ regular_iff

/-- Lengths along axes are a matter of the shape. -/
theorem dim_shape (k : Nat) (v : Val S) : dim k (shape v) = dim k v := by
  unfold shape
  induction k generalizing v with
  | zero =>
    cases v with
    | sc s => rfl
    | vec vs => simp [map_vec, dim]
    | pair a b => rfl
  | succ k ih =>
    cases v with
    | sc s => rfl
    | vec vs =>
      rw [map_vec]
      cases vs with
      | nil => rfl
      | cons v vs => simp [dim, ih]
    | pair a b => rfl

theorem dim_congr {v w : Val S} (h : shape v = shape w) (k : Nat) : dim k v = dim k w := by
  rw [← dim_shape, h, dim_shape]

end Verif.Val

namespace Verif.Phi
open Verif.Term
variable {F : Type} [FloatOps F]

/-- All values of the environment are regular. -/
def RegularEnv (env : Env (D F)) : Prop := ∀ s v, env s = some v → Val.Regular v

/-- The constants in the expression are regular. -/
def RegularConsts : Expr F → Prop :=
  cata fun h ps => (∀ v τ, h = .const v τ → Val.Regular v) ∧ ∀ p ∈ ps, p

omit [FloatOps F] in
theorem regularConsts_node (h : Head F) (ts : List (Expr F)) :
    RegularConsts (node h ts) ↔ (∀ v τ, h = .const v τ → Val.Regular v) ∧ ∀ t ∈ ts, RegularConsts t := by
  unfold RegularConsts
  rw [cata_node, List.forall_mem_map]

/-- The external functions return regular values. -/
def RegularExt (I : Ext F) : Prop := ∀ fn vs v, I fn vs = some v → Val.Regular v

omit [FloatOps F] in
theorem RegularEnv.set {env : Env (D F)} (h : RegularEnv env) (s : Sym) {v : D F} (hv : Val.Regular v) :
    RegularEnv (env.set s (some v)) := by
  intro s' v' h'
  unfold Env.set at h'
  split at h'
  · cases h'; exact hv
  · exact h s' v' h'

theorem loopOpt_prop {α β : Type} {P : β → Prop} {f : β → α → Option β} {l : List α}
    (hf : ∀ a ∈ l, ∀ b b', P b → f b a = some b' → P b') :
    ∀ {b r}, P b → loopOpt f b l = some r → P r := by
  induction l with
  | nil => intro b r hb h; cases h; exact hb
  | cons a l ih =>
    intro b r hb h
    simp only [loopOpt, Option.bind_eq_some_iff] at h
    obtain ⟨b', h1, h2⟩ := h
    exact ih (fun x hx => hf x (List.mem_cons_of_mem _ hx)) (hf a List.mem_cons_self b b' hb h1) h2

theorem mapOpt_prop {α β : Type} {P : β → Prop} {f : α → Option β} {l : List α} {bs : List β}
    (hf : ∀ a ∈ l, ∀ b, f a = some b → P b) (h : mapOpt f l = some bs) : ∀ b ∈ bs, P b := by
  induction l generalizing bs with
  | nil => cases h; simp
  | cons a l ih =>
    simp only [mapOpt, Option.bind_eq_some_iff, Option.some.injEq] at h
    obtain ⟨b, h1, bs', h2, rfl⟩ := h
    intro x hx
    rcases List.mem_cons.1 hx with rfl | hx
    · exact hf a List.mem_cons_self _ h1
    · exact ih (fun y hy => hf y (List.mem_cons_of_mem _ hy)) h2 x hx

omit [FloatOps F] in
theorem regular_foldl_pair {l : List (D F)} : ∀ {v : D F}, Val.Regular v → (∀ w ∈ l, Val.Regular w) →
    Val.Regular (l.foldl .pair v) := by
  induction l with
  | nil => intro v hv _; exact hv
  | cons w l ih =>
    intro v hv hl
    exact ih (.pair hv (hl w List.mem_cons_self)) fun x hx => hl x (List.mem_cons_of_mem _ hx)

omit [FloatOps F] in
theorem regular_asVec {x : Option (D F)} {vs : List (D F)} (h : x.bind Val.asVec = some vs) : x = some (.vec vs) := by
  cases x with
  | none => cases h
  | some x => cases x <;> simp [Val.asVec] at h; subst h; rfl

/-- The reference interpreter returns regular values. -/
theorem run_regular {I : Ext F} (hI : RegularExt I) (e : Expr F) : RegularConsts e → ∀ env v, RegularEnv env →
    run I e env = some v → Val.Regular v := by
  induction e using ind with
  | step h ts ih =>
    intro hk env v hE hv
    rw [regularConsts_node] at hk
    have ih' : ∀ t ∈ ts, ∀ env v, RegularEnv env → run I t env = some v → Val.Regular v :=
      fun t ht => ih t ht (hk.2 t ht)
    rw [run_node] at hv
    cases h with
    | const w τ => cases hv; exact hk.1 _ τ rfl
    | store s τ => exact hE s v hv
    | letv u =>
      rcases ts with _ | ⟨a, _ | ⟨b, _ | ⟨_, _⟩⟩⟩ <;> try cases hv
      simp only [List.map, runDen, Option.bind_eq_some_iff] at hv
      obtain ⟨x, h1, h2⟩ := hv
      exact ih' b (by simp) _ _ (hE.set _ (ih' a (by simp) _ _ hE h1)) h2
    | assertEq =>
      rcases ts with _ | ⟨a, l⟩ <;> try cases hv
      simp only [List.map_cons, runDen, assertOf, Option.bind_eq_some_iff] at hv
      obtain ⟨ns, h1, h2⟩ := hv
      cases ns with
      | nil => cases h2
      | cons n ns =>
        simp only at h2
        split at h2
        · exact ih' a (by simp) _ _ hE h2
        · cases h2
    | dim k =>
      rcases ts with _ | ⟨a, _ | ⟨b, l⟩⟩ <;> try cases hv
      simp only [List.map, runDen, dimOf, Option.bind_eq_some_iff] at hv
      obtain ⟨n, _, h3⟩ := hv
      cases h3; exact .sc _
    | get =>
      rcases ts with _ | ⟨a, _ | ⟨b, _ | ⟨_, _⟩⟩⟩ <;> try cases hv
      simp only [List.map, runDen, getOf] at hv
      obtain ⟨vs, h1, hv⟩ := Option.bind_eq_some_iff.1 hv
      obtain ⟨n, h2, h3⟩ := Option.bind_eq_some_iff.1 hv
      have hr := ih' a (by simp) _ _ hE (regular_asVec h1)
      cases hr with
      | vec _ hr => exact hr v (List.mem_of_getElem? h3)
    | concat =>
      rcases ts with _ | ⟨a, _ | ⟨b, _ | ⟨_, _⟩⟩⟩ <;> try cases hv
      simp only [List.map, runDen, concatOf] at hv
      obtain ⟨vs, h1, hv⟩ := Option.bind_eq_some_iff.1 hv
      obtain ⟨ws, h2, h3⟩ := Option.bind_eq_some_iff.1 hv
      split at h3
      · rename_i hu
        cases h3
        have r1 := ih' a (by simp) _ _ hE (regular_asVec h1)
        have r2 := ih' b (by simp) _ _ hE (regular_asVec h2)
        cases r1 with
        | vec _ r1 =>
          cases r2 with
          | vec _ r2 =>
            refine .vec hu fun x hx => ?_
            rcases List.mem_append.1 hx with hx | hx
            · exact r1 x hx
            · exact r2 x hx
      · cases h3
    | cons =>
      rcases ts with _ | ⟨a, _ | ⟨b, _ | ⟨_, _⟩⟩⟩ <;> try cases hv
      simp only [List.map, runDen, consOf, Option.bind_eq_some_iff] at hv
      obtain ⟨x, h1, y, h2, h3⟩ := hv
      cases h3
      exact .pair (ih' a (by simp) _ _ hE h1) (ih' b (by simp) _ _ hE h2)
    | fst =>
      rcases ts with _ | ⟨a, _ | ⟨b, l⟩⟩ <;> try cases hv
      simp only [List.map, runDen, fstOf, Option.bind_eq_some_iff] at hv
      obtain ⟨x, h1, h2⟩ := hv
      cases x <;> simp at h2
      subst h2
      have := ih' a (by simp) _ _ hE h1
      cases this with | pair h _ => exact h
    | snd =>
      rcases ts with _ | ⟨a, _ | ⟨b, l⟩⟩ <;> try cases hv
      simp only [List.map, runDen, sndOf, Option.bind_eq_some_iff] at hv
      obtain ⟨x, h1, h2⟩ := hv
      cases x <;> simp at h2
      subst h2
      have := ih' a (by simp) _ _ hE h1
      cases this with | pair _ h => exact h
    | vec i =>
      rcases ts with _ | ⟨n, _ | ⟨b, _ | ⟨_, _⟩⟩⟩ <;> try cases hv
      simp only [List.map, runDen, vecOf] at hv
      obtain ⟨m, _, hv⟩ := Option.bind_eq_some_iff.1 hv
      obtain ⟨vs, h1, h2⟩ := Option.bind_eq_some_iff.1 hv
      split at h2
      · rename_i hu
        cases h2
        exact .vec hu (mapOpt_prop (fun k _ w hw => ih' b (by simp) _ _ (hE.set _ (.sc _)) hw) h1)
      · cases h2
    | fold c a =>
      rcases ts with _ | ⟨n, _ | ⟨z, _ | ⟨b, _ | ⟨_, _⟩⟩⟩⟩ <;> try cases hv
      simp only [List.map, runDen, foldOf, Option.bind_eq_some_iff] at hv
      obtain ⟨m, _, y, h3, h4⟩ := hv
      exact loopOpt_prop (P := Val.Regular)
        (fun k _ u u' hu hb => ih' b (by simp) _ _ ((hE.set _ hu).set _ (.sc _)) hb)
        (ih' z (by simp) _ _ hE h3) h4
    | reduce x y =>
      rcases ts with _ | ⟨z, _ | ⟨b, l⟩⟩ <;> try cases hv
      simp only [List.map_cons, runDen, reduceOf] at hv
      obtain ⟨vs, h1, h2⟩ := Option.bind_eq_some_iff.1 hv
      have hvs : ∀ ws ∈ vs, ∀ w ∈ ws, Val.Regular w := by
        refine mapOpt_prop (P := fun ws => ∀ w ∈ ws, Val.Regular w) ?_ h1
        intro o ho ws hws
        simp only [List.mem_map] at ho
        obtain ⟨_, ⟨t, ht, rfl⟩, rfl⟩ := ho
        have := ih' t (by simp [ht]) _ _ hE (regular_asVec hws)
        cases this with | vec _ h => exact h
      cases vs with
      | nil => cases h2
      | cons w ws =>
        simp only at h2
        split at h2
        · obtain ⟨y0, h3, h4⟩ := Option.bind_eq_some_iff.1 h2
          refine loopOpt_prop (P := Val.Regular) ?_ (ih' z (by simp) _ _ hE h3) h4
          intro k _ u u' hu hb
          obtain ⟨row, hb, h7⟩ := Option.bind_eq_some_iff.1 hb
          obtain ⟨rs, h5, h6⟩ := Option.bind_eq_some_iff.1 hb
          have hrs : ∀ r ∈ rs, Val.Regular r := by
            refine mapOpt_prop (P := Val.Regular) (fun l hl r hr => ?_) h5
            exact hvs l hl r (List.mem_of_getElem? hr)
          have hrow : Val.Regular row := by
            cases rs with
            | nil => cases h6
            | cons r rs =>
              cases h6
              exact regular_foldl_pair (hrs r (by simp)) fun x hx => hrs x (by simp [hx])
          exact ih' b (by simp) _ _ ((hE.set _ hu).set _ hrow) h7
        · cases h2
    | op f =>
      simp only [runDen, opOf, Option.bind_eq_some_iff] at hv
      obtain ⟨ss, _, s, _, h3⟩ := hv
      cases h3; exact .sc _
    | ext fn τ =>
      simp only [runDen, extOf, Option.bind_eq_some_iff] at hv
      obtain ⟨as, _, h⟩ := hv
      exact hI _ _ _ h

end Verif.Phi
