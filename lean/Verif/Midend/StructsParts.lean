import Verif.Midend.StructsSubst

/-! The component-wise reads, sizes and concatenations built by the struct-of-arrays pass. -/

set_option linter.unusedSectionVars false

namespace Verif.Midend
open Verif.Phi Verif.Term
variable {F : Type}

/-! ### Types and scopes of small terms -/
section build
variable {fl : Bool} {I : Ext F} {Γ : TCtx} {a b : Expr F} {σ τ : Ty}

theorem typeOf_fst (h : typeOf a = some (.pair σ τ)) : typeOf (fst a) = some σ := by
  rw [fst, typeOf_node]; simp [h, typeStep]

theorem typeOf_snd (h : typeOf a = some (.pair σ τ)) : typeOf (snd a) = some τ := by
  rw [snd, typeOf_node]; simp [h, typeStep]

theorem typeOf_cons (ha : typeOf a = some σ) (hb : typeOf b = some τ) : typeOf (cons a b) = some (.pair σ τ) := by
  rw [cons, typeOf_node]; simp [ha, hb, typeStep]

theorem typeOf_get {k : Kind} (ha : typeOf a = some (.vector τ)) (hb : typeOf b = some (.scalar k)) :
    typeOf (Phi.get a b) = some τ := by
  rw [Phi.get, typeOf_node]; simp [ha, hb, typeStep]

theorem typeOf_dim (k : Nat) (ha : typeOf a = some τ) : typeOf (dim a k) = some (.scalar .int) := by
  rw [dim, typeOf_node]; simp [ha, typeStep]

theorem typeOf_concat (ha : typeOf a = some (.vector τ)) (hb : typeOf b = some (.vector τ)) :
    typeOf (node .concat [a, b]) = some (.vector τ) := by
  rw [typeOf_node]; simp [ha, hb, typeStep]

theorem Fine.flat_of (h : Fine true I a Γ) (ht : typeOf a = some τ) : flat τ = true := by
  obtain ⟨σ, h1, h2⟩ := h.typed
  rw [ht] at h1; cases h1
  exact h2 rfl

/-- A node that binds nothing. -/
theorem Fine.plain {h : Head F} {ts : List (Expr F)} (hc : h.captured = ∅) (ht : typeOf (Term.node h ts) = some τ)
    (hfl : fl = true → flat τ = true) (hok : headOk I h ts Γ) (hch : ∀ t ∈ ts, Fine fl I t Γ) :
    Fine fl I (Term.node h ts) Γ := by
  refine .node τ ht hfl hok (by simp [hc]) fun k t hk => ?_
  rw [childCtx_none Γ h hc]
  exact hch t (List.mem_of_getElem? hk)

theorem Fine.fst (ha : Fine fl I a Γ) (h : typeOf a = some (.pair σ τ)) : Fine fl I (fst a) Γ := by
  refine .plain rfl (typeOf_fst h) (fun hfl => ?_) trivial (by simpa using ha)
  obtain ⟨ρ, h1, h2⟩ := ha.typed
  rw [h] at h1; cases h1
  have := h2 hfl
  simp only [flat, Bool.and_eq_true] at this
  exact this.1

theorem Fine.snd (ha : Fine fl I a Γ) (h : typeOf a = some (.pair σ τ)) : Fine fl I (snd a) Γ := by
  refine .plain rfl (typeOf_snd h) (fun hfl => ?_) trivial (by simpa using ha)
  obtain ⟨ρ, h1, h2⟩ := ha.typed
  rw [h] at h1; cases h1
  have := h2 hfl
  simp only [flat, Bool.and_eq_true] at this
  exact this.2

theorem Fine.cons (ha : Fine fl I a Γ) (hb : Fine fl I b Γ) : Fine fl I (cons a b) Γ := by
  obtain ⟨σ, h1, h2⟩ := ha.typed
  obtain ⟨τ, h3, h4⟩ := hb.typed
  exact .plain rfl (typeOf_cons h1 h3) (fun hfl => by simp [flat, h2 hfl, h4 hfl]) trivial
    (by simp only [List.mem_cons, List.not_mem_nil, or_false]; rintro t (rfl | rfl) <;> assumption)

theorem Fine.get {k : Kind} (ha : Fine fl I a Γ) (hb : Fine fl I b Γ) (h1 : typeOf a = some (.vector τ))
    (h2 : typeOf b = some (.scalar k)) : Fine fl I (Phi.get a b) Γ := by
  refine .plain rfl (typeOf_get h1 h2) (fun hfl => ?_) trivial
    (by simp only [List.mem_cons, List.not_mem_nil, or_false]; rintro t (rfl | rfl) <;> assumption)
  obtain ⟨ρ, h3, h4⟩ := ha.typed
  rw [h1] at h3; cases h3
  exact flat_of_isArr (h4 hfl)

theorem Fine.dim (k : Nat) (ha : Fine fl I a Γ) : Fine fl I (dim a k) Γ := by
  obtain ⟨ρ, h3, h4⟩ := ha.typed
  exact .plain rfl (typeOf_dim k h3) (fun _ => rfl) trivial (by simpa using ha)

theorem Fine.concat (ha : Fine fl I a Γ) (hb : Fine fl I b Γ) (h1 : typeOf a = some (.vector τ))
    (h2 : typeOf b = some (.vector τ)) : Fine fl I (Term.node .concat [a, b]) Γ := by
  obtain ⟨ρ, h3, h4⟩ := ha.typed
  rw [h1] at h3; cases h3
  exact .plain rfl (typeOf_concat h1 h2) h4 trivial
    (by simp only [List.mem_cons, List.not_mem_nil, or_false]; rintro t (rfl | rfl) <;> assumption)

end build

/-- The number of a symbol. -/
def symNum : Sym → Nat
  | .var n => n
  | .idx n => n

/-- The symbols bound in the term have numbers below `c`. -/
def NumBelow (c : Nat) (e : Expr F) : Prop := ∀ s ∈ binders e, symNum s < c

theorem NumBelow.mono {c c' : Nat} {e : Expr F} (h : NumBelow c e) (hc : c ≤ c') : NumBelow c' e :=
  fun s hs => Nat.lt_of_lt_of_le (h s hs) hc

theorem below_node {c : Nat} {h : Head F} {ts : List (Expr F)} :
    NumBelow c (node h ts) ↔ (∀ s ∈ h.captured, symNum s < c) ∧ ∀ t ∈ ts, NumBelow c t := by
  unfold NumBelow
  constructor
  · exact fun H => ⟨fun s hs => H s (mem_binders.2 (.inl hs)), fun t ht s hs => H s (mem_binders.2 (.inr ⟨t, ht, hs⟩))⟩
  · rintro ⟨h1, h2⟩ s hs
    rcases mem_binders.1 hs with hs | ⟨t, ht, hs⟩
    · exact h1 s hs
    · exact h2 t ht s hs

theorem NumBelow.plain {c : Nat} {h : Head F} {ts : List (Expr F)} (hc : h.captured = ∅) (H : ∀ t ∈ ts, NumBelow c t) :
    NumBelow c (node h ts) := below_node.2 ⟨by simp [hc], H⟩

section tuples
variable [FloatOps F] {fl : Bool} {I : Ext F} {Γ : TCtx} {c : Nat}

theorem NumBelow.fst {a : Expr F} (h : NumBelow c a) : NumBelow c (fst a) := .plain rfl (by simpa using h)
theorem NumBelow.snd {a : Expr F} (h : NumBelow c a) : NumBelow c (snd a) := .plain rfl (by simpa using h)
theorem NumBelow.cons {a b : Expr F} (ha : NumBelow c a) (hb : NumBelow c b) : NumBelow c (cons a b) :=
  .plain rfl (by simp only [List.mem_cons, List.not_mem_nil, or_false]; rintro t (rfl | rfl) <;> assumption)

theorem run_fst {a : Expr F} {env : Env (D F)} : run I (fst a) env = fstOf (run I a env) := by
  rw [fst, run_node]; rfl
theorem run_snd {a : Expr F} {env : Env (D F)} : run I (snd a) env = sndOf (run I a env) := by
  rw [snd, run_node]; rfl
theorem run_cons {a b : Expr F} {env : Env (D F)} :
    run I (cons a b) env = consOf (run I a env) (run I b env) := by
  rw [cons, run_node]; rfl
theorem run_get {a b : Expr F} {env : Env (D F)} :
    run I (Phi.get a b) env = getOf (run I a env) (run I b env) := by
  rw [Phi.get, run_node]; rfl
theorem run_dim_node {a : Expr F} {k : Nat} {env : Env (D F)} : run I (dim a k) env = dimOf k (run I a env) := by
  rw [dim, run_node]; rfl
theorem run_concat {a b : Expr F} {env : Env (D F)} :
    run I (node .concat [a, b]) env = concatOf (run I a env) (run I b env) := by
  rw [run_node]; rfl

/-! ### Reads -/

theorem tupleGet_below {it : Expr F} (hi : NumBelow c it) (t : Ty) : ∀ {sub : Expr F}, NumBelow c sub →
    NumBelow c (tupleGet it t sub) := by
  induction t with
  | pair a b iha ihb => intro sub h; exact (iha h.fst).cons (ihb h.snd)
  | scalar _ | vector _ _ =>
    intro sub h
    exact .plain rfl (by simp only [List.mem_cons, List.not_mem_nil, or_false]; rintro t (rfl | rfl) <;> assumption)

theorem tupleGet_fine {it : Expr F} {k : Kind} (hi : Fine fl I it Γ) (hk : typeOf it = some (.scalar k)) (t : Ty) :
    ∀ {sub : Expr F}, Fine fl I sub Γ → typeOf sub = some (soaVec t) →
      Fine fl I (tupleGet it (soaVec t) sub) Γ ∧ typeOf (tupleGet it (soaVec t) sub) = some (soaTy t) := by
  induction t with
  | pair a b iha ihb =>
    intro sub h ht
    have h1 := iha (h.fst ht) (typeOf_fst ht)
    have h2 := ihb (h.snd ht) (typeOf_snd ht)
    exact ⟨h1.1.cons h2.1, typeOf_cons h1.2 h2.2⟩
  | scalar _ | vector _ _ =>
    intro sub h ht
    exact ⟨h.get hi ht hk, typeOf_get ht hk⟩

theorem get_map {S : Type} (f : Val S → Val S) (vs : List (Val S)) (n : Int) :
    Val.get (vs.map f) n = (Val.get vs n).map f := by
  simp [Val.get]

theorem get_mem {S : Type} {vs : List (Val S)} {n : Int} {v : Val S} (h : Val.get vs n = some v) : v ∈ vs :=
  List.mem_of_getElem? h

theorem getOf_eq {vs : List (D F)} {n : Int} : getOf (some (.vec vs)) (some (.int n)) = Val.get vs n := rfl

theorem tupleGet_run {it : Expr F} {env : Env (D F)} {n : Int} (hn : run I it env = some (.int n)) (t : Ty) :
    ∀ {sub : Expr F} {vs : List (D F)} {v : D F}, run I sub env = some (soaVals t vs) → (∀ v ∈ vs, HasType v t) →
      Val.get vs n = some v → run I (tupleGet it (soaVec t) sub) env = some (soaVal t v) := by
  induction t with
  | pair a b iha ihb =>
    intro sub vs v hs ht hv
    have h1 := iha (sub := fst sub) (vs := vs.map Val.left) (v := v.left) (by rw [run_fst, hs]; rfl)
      (by intro w hw; obtain ⟨w', hw', rfl⟩ := List.mem_map.1 hw
          cases ht w' hw' with | pair h1 h2 => exact h1) (by rw [get_map, hv]; rfl)
    have h2 := ihb (sub := snd sub) (vs := vs.map Val.right) (v := v.right) (by rw [run_snd, hs]; rfl)
      (by intro w hw; obtain ⟨w', hw', rfl⟩ := List.mem_map.1 hw
          cases ht w' hw' with | pair h1 h2 => exact h2) (by rw [get_map, hv]; rfl)
    show run I (cons _ _) env = _
    rw [run_cons, h1, h2]
    cases ht v (get_mem hv) with | pair h1 h2 => rfl
  | scalar k =>
    intro sub vs v hs ht hv
    show run I (Phi.get _ _) env = _
    rw [run_get, hs, hn]
    rw [soaVals, getOf_eq, hv]
    cases v <;> rfl
  | vector t _ =>
    intro sub vs v hs ht hv
    show run I (Phi.get _ _) env = _
    rw [run_get, hs, hn]
    rw [soaVals, getOf_eq, get_map, hv]
    cases ht v (get_mem hv) with | vec h => rfl

/-! ### Concatenation -/

theorem tupleCat_below (t : Ty) : ∀ {s1 s2 : Expr F}, NumBelow c s1 → NumBelow c s2 → NumBelow c (tupleCat t s1 s2) := by
  induction t with
  | pair a b iha ihb => intro s1 s2 h1 h2; exact (iha h1.fst h2.fst).cons (ihb h1.snd h2.snd)
  | scalar _ | vector _ _ =>
    intro s1 s2 h1 h2
    exact .plain rfl (by simp only [List.mem_cons, List.not_mem_nil, or_false]; rintro t (rfl | rfl) <;> assumption)

theorem tupleCat_fine (t : Ty) : ∀ {s1 s2 : Expr F}, Fine fl I s1 Γ → Fine fl I s2 Γ →
    typeOf s1 = some (soaVec t) → typeOf s2 = some (soaVec t) →
    Fine fl I (tupleCat (soaVec t) s1 s2) Γ ∧ typeOf (tupleCat (soaVec t) s1 s2) = some (soaVec t) := by
  induction t with
  | pair a b iha ihb =>
    intro s1 s2 h1 h2 t1 t2
    have e1 := iha (h1.fst t1) (h2.fst t2) (typeOf_fst t1) (typeOf_fst t2)
    have e2 := ihb (h1.snd t1) (h2.snd t2) (typeOf_snd t1) (typeOf_snd t2)
    exact ⟨e1.1.cons e2.1, typeOf_cons e1.2 e2.2⟩
  | scalar _ | vector _ _ =>
    intro s1 s2 h1 h2 t1 t2
    exact ⟨h1.concat h2 t1 t2, typeOf_concat t1 t2⟩

theorem tupleCat_run {env : Env (D F)} (t : Ty) : ∀ {s1 s2 : Expr F} {vs ws : List (D F)},
    run I s1 env = some (soaVals t vs) → run I s2 env = some (soaVals t ws) → Val.uniform (vs ++ ws) = true →
    run I (tupleCat (soaVec t) s1 s2) env = some (soaVals t (vs ++ ws)) := by
  induction t with
  | pair a b iha ihb =>
    intro s1 s2 vs ws h1 h2 hu
    have e1 := iha (s1 := fst s1) (s2 := fst s2) (vs := vs.map Val.left) (ws := ws.map Val.left)
      (by rw [run_fst, h1]; rfl) (by rw [run_fst, h2]; rfl)
      (by rw [← List.map_append]; exact uniform_map (fun _ _ => shape_left) hu)
    have e2 := ihb (s1 := snd s1) (s2 := snd s2) (vs := vs.map Val.right) (ws := ws.map Val.right)
      (by rw [run_snd, h1]; rfl) (by rw [run_snd, h2]; rfl)
      (by rw [← List.map_append]; exact uniform_map (fun _ _ => shape_right) hu)
    show run I (cons _ _) env = _
    rw [run_cons, e1, e2, ← List.map_append, ← List.map_append]
    rfl
  | scalar k =>
    intro s1 s2 vs ws h1 h2 hu
    show run I (node .concat _) env = _
    rw [run_concat, h1, h2]
    show (if Val.uniform (vs ++ ws) = true then some _ else none) = _
    rw [if_pos hu]; rfl
  | vector t _ =>
    intro s1 s2 vs ws h1 h2 hu
    show run I (node .concat _) env = _
    rw [run_concat, h1, h2]
    show (if Val.uniform (vs.map _ ++ ws.map _) = true then some (Val.vec (vs.map _ ++ ws.map _)) else none) = _
    rw [← List.map_append, if_pos (uniform_map (fun _ _ => shape_onVec) hu)]
    rfl

/-! ### Sizes -/

theorem tupleDim_ne (k : Nat) (t : Ty) (sub : Expr F) : tupleDim k t sub ≠ [] := by
  induction t generalizing sub with
  | pair a b iha ihb => simp [tupleDim, iha]
  | _ => simp [tupleDim]

theorem tupleDim_below (k : Nat) (t : Ty) : ∀ {sub : Expr F}, NumBelow c sub → ∀ d ∈ tupleDim k t sub, NumBelow c d := by
  induction t with
  | pair a b iha ihb =>
    intro sub h d hd
    rcases List.mem_append.1 hd with hd | hd
    · exact iha h.fst d hd
    · exact ihb h.snd d hd
  | scalar _ | vector _ _ =>
    intro sub h d hd
    rw [List.mem_singleton.1 hd]
    exact .plain rfl (by simpa using h)

theorem tupleDim_fine (k : Nat) (t : Ty) : ∀ {sub : Expr F}, Fine fl I sub Γ → typeOf sub = some t →
    ∀ d ∈ tupleDim k t sub, Fine fl I d Γ ∧ typeOf d = some (.scalar .int) := by
  induction t with
  | pair a b iha ihb =>
    intro sub h ht d hd
    rcases List.mem_append.1 hd with hd | hd
    · exact iha (h.fst ht) (typeOf_fst ht) d hd
    · exact ihb (h.snd ht) (typeOf_snd ht) d hd
  | scalar _ | vector _ _ =>
    intro sub h ht d hd
    rw [List.mem_singleton.1 hd]
    exact ⟨h.dim k, typeOf_dim k ht⟩

/-- Each component has the length of the array of records. -/
theorem tupleDim_run {env : Env (D F)} (t : Ty) : ∀ {sub : Expr F} {vs : List (D F)},
    run I sub env = some (soaVals t vs) →
    ∀ d ∈ tupleDim 0 (soaVec t) sub, run I d env = some (.int vs.length) := by
  induction t with
  | pair a b iha ihb =>
    intro sub vs h d hd
    rcases List.mem_append.1 hd with hd | hd
    · have := iha (sub := fst sub) (vs := vs.map Val.left) (by rw [run_fst, h]; rfl) d hd
      simpa using this
    · have := ihb (sub := snd sub) (vs := vs.map Val.right) (by rw [run_snd, h]; rfl) d hd
      simpa using this
  | scalar k =>
    intro sub vs h d hd
    rw [List.mem_singleton.1 hd, run_dim_node, h]
    rfl
  | vector t _ =>
    intro sub vs h d hd
    rw [List.mem_singleton.1 hd, run_dim_node, h]
    simp [soaVals, dimOf, Val.dim]

end tuples
end Verif.Midend
