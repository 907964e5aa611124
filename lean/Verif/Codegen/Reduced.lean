import Verif.Codegen.RedLoop
import Verif.Codegen.Unused
import Verif.Codegen.Correct

/-! The code of a structured reduction (`phi_to_yarr.py:192-223`) computes the value of the checked interpreter. -/

set_option linter.unusedSectionVars false

namespace Verif.Codegen
open Verif.Phi Verif.Term Verif.Yarr Verif.Arr
open Verif.Backend (treeReduce treeLoop accStep batch everyOther)
variable {F : Type} [FloatOps F] {J : YExt F} {o : Opts F} {I : Ext F}
variable {S : Finset Sym} {σ : Nat → Nat} {sizes : Nat → Option (YExpr F)} {vaxes : Nat → List Nat}
  {E : (Nat → Nat) → Env (D F)} {yenv : Env (YVal F)}

omit [FloatOps F] in
/-- With one more symbol in scope, that is not bound inside. -/
theorem lexical_insert {s : Sym} (e : Expr F) : ∀ T : Finset Sym, s ∉ binders e → lexical e T = true →
    lexical e (insert s T) = true := by
  induction e using ind with
  | step h ts ih =>
    intro T hs hT
    have hc : s ∉ Lang.captured h := fun hm => hs (mem_binders.2 (.inl hm))
    have one : ∀ t ∈ ts, ∀ T, lexical t T = true → lexical t (insert s T) = true := fun t ht T hl =>
      ih t ht T (fun hb => hs (mem_binders.2 (.inr ⟨t, ht, hb⟩))) hl
    have all : (ts.map lexical).all (· T) = true → (ts.map lexical).all (· (insert s T)) = true := by
      intro hl
      rw [List.all_eq_true] at hl ⊢
      intro f hf
      obtain ⟨t, ht, rfl⟩ := List.mem_map.1 hf
      exact one t ht T (hl _ (List.mem_map.2 ⟨t, ht, rfl⟩))
    have fresh : ∀ q ∈ Lang.captured h, q ∉ T → q ∉ insert s T := fun q hq hn hm => by
      rcases Finset.mem_insert.1 hm with e | hm
      · exact hc (e ▸ hq)
      · exact hn hm
    have under : ∀ t ∈ ts, ∀ q, lexical t (insert q T) = true → lexical t (insert q (insert s T)) = true :=
      fun t ht q hl => by rw [Finset.insert_comm]; exact one t ht _ hl
    have under2 : ∀ t ∈ ts, ∀ q r, lexical t (insert q (insert r T)) = true →
        lexical t (insert q (insert r (insert s T))) = true :=
      fun t ht q r hl => by
        rw [Finset.insert_comm r s, Finset.insert_comm q s]
        exact one t ht _ hl
    rw [lexical_node] at hT ⊢
    cases h with
    | store q τ =>
      simp only [lexStep, Bool.and_eq_true, decide_eq_true_eq] at hT ⊢
      exact ⟨Finset.mem_insert_of_mem hT.1, all hT.2⟩
    | letv v =>
      rcases ts with _ | ⟨b, _ | ⟨e, _ | ⟨_, _⟩⟩⟩ <;> try exact all hT
      simp only [List.map, lexStep, Bool.and_eq_true, decide_eq_true_eq] at hT ⊢
      exact ⟨⟨one b (by simp) _ hT.1.1, fresh _ (by simp [Lang.captured, Phi.Head.captured]) hT.1.2⟩,
        under e (by simp) _ hT.2⟩
    | vec i =>
      rcases ts with _ | ⟨b, _ | ⟨e, _ | ⟨_, _⟩⟩⟩ <;> try exact all hT
      simp only [List.map, lexStep, Bool.and_eq_true, decide_eq_true_eq] at hT ⊢
      exact ⟨⟨one b (by simp) _ hT.1.1, fresh _ (by simp [Lang.captured, Phi.Head.captured]) hT.1.2⟩,
        under e (by simp) _ hT.2⟩
    | fold c a =>
      rcases ts with _ | ⟨n, _ | ⟨z, _ | ⟨e, _ | ⟨_, _⟩⟩⟩⟩ <;> try exact all hT
      simp only [List.map, lexStep, Bool.and_eq_true, decide_eq_true_eq] at hT ⊢
      obtain ⟨⟨⟨⟨⟨h1, h2⟩, h3⟩, h4⟩, h5⟩, h6⟩ := hT
      exact ⟨⟨⟨⟨⟨one n (by simp) _ h1, one z (by simp) _ h2⟩,
        fresh _ (by simp [Lang.captured, Phi.Head.captured]) h3⟩,
        fresh _ (by simp [Lang.captured, Phi.Head.captured]) h4⟩, h5⟩, under2 e (by simp) _ _ h6⟩
    | reduce x y =>
      rcases ts with _ | ⟨z, _ | ⟨e, vs⟩⟩ <;> try exact all hT
      simp only [List.map_cons, lexStep, Bool.and_eq_true, decide_eq_true_eq] at hT ⊢
      obtain ⟨⟨⟨⟨⟨h1, h2⟩, h3⟩, h4⟩, h5⟩, h6⟩ := hT
      refine ⟨⟨⟨⟨⟨one z (by simp) _ h1, ?_⟩,
        fresh _ (by simp [Lang.captured, Phi.Head.captured]) h3⟩,
        fresh _ (by simp [Lang.captured, Phi.Head.captured]) h4⟩, h5⟩, under2 e (by simp) _ _ h6⟩
      rw [List.all_eq_true] at h2 ⊢
      intro f hf
      obtain ⟨t, ht, rfl⟩ := List.mem_map.1 hf
      exact one t (by simp [ht]) T (h2 _ (List.mem_map.2 ⟨t, ht, rfl⟩))
    | _ => exact all hT

theorem EnvRel.batch (h : EnvRel J S σ sizes vaxes E yenv) {B m : Nat} (hB : Sym.idx B ∉ S) (hm : 0 < m)
    (hs : sizes B = none) : EnvRel J (insert (.idx B) S) (upd σ B m) sizes vaxes
      (fun ρ => (E ρ).set (.idx B) (some (.int (ρ B)))) yenv := by
  have hu := h.under hB hm (z := yint m) fun yenv' _ => ⟨evalsInt_const _, rankOk_yint _⟩
  refine ⟨hu.pos, fun i z hz y hy => ?_, hu.idx, hu.axes, hu.var, hu.fresh, hu.locl⟩
  have hne : i ≠ B := fun e => by rw [e, hs] at hz; cases hz
  have := h.size i z hz y (hy.mono (Finset.subset_insert _ _))
  simpa [upd, hne] using this

/-! ### The vectors -/

theorem views_pairs {axes : List Nat} {ρ : Nat → Nat} (g : List Nat → List Nat) (P : List (A F × List Nat)) :
    views axes ρ (P.map Prod.fst) (P.map fun p => g p.2) =
      P.map fun p => (g p.2, fun jx => p.1.get? (axes.map ρ ++ jx)) := by
  induction P with
  | nil => rfl
  | cons p P ih =>
    unfold views at ih ⊢
    simp only [List.map_cons, List.zipWith_cons_cons, ih]

/-- Each vector is one array. -/
theorem vecs_hold (hσ : Positive (inScope S) σ) {axes : List Nat} {val : Expr F → (Nat → Nat) → Option (D F)}
    {vs : List (Expr F)} {vs' : List (YExpr F)}
    (h : List.Forall₂ (fun v v' => Means J yenv (inScope S) σ ⟨axes, v'⟩ (val v)) vs vs')
    (hv : ∀ v ∈ vs, ∀ ρ, Valid (inScope S) σ ρ → ∃ l, val v ρ = some (.vec l)) :
    ∃ P : List (A F × List Nat),
      List.Forall₂ (fun v' (a : A F) => Yarr.eval J v' yenv = some (.arr a)) vs' (P.map Prod.fst) ∧
      (∀ v' ∈ vs', RankOk J yenv v') ∧
      (∀ p ∈ P, p.1.shape = axes.map σ ++ p.2) ∧ ∀ ρ, Valid (inScope S) σ ρ →
        List.Forall₂ (fun v (p : A F × List Nat) => ∃ l, val v ρ = some (.vec l) ∧
          Reps p.2 (fun jx => p.1.get? (axes.map ρ ++ jx)) (.vec l)) vs P := by
  induction h with
  | nil => exact ⟨[], .nil, by simp, by simp, fun _ _ => .nil⟩
  | @cons v v' vs vs' h1 _ ih =>
    obtain ⟨P, i1, i2, i3, i4⟩ := ih fun t ht => hv t (by simp [ht])
    obtain ⟨a, s, ho⟩ := h1.one_of hσ (by
      obtain ⟨l, hl⟩ := hv v (by simp) _ (valid_zero hσ)
      intro a b e
      rw [hl] at e
      cases e)
    refine ⟨(a, s) :: P, .cons ho.value i1, ?_, ?_, fun ρ hρ => .cons ?_ (i4 ρ hρ)⟩
    · intro t ht
      rcases List.mem_cons.1 ht with rfl | ht
      · exact ho.rank
      · exact i2 t ht
    · intro p hp
      rcases List.mem_cons.1 hp with rfl | hp
      · exact ho.shape
      · exact i3 p hp
    · obtain ⟨l, hl⟩ := hv v (by simp) ρ hρ
      obtain ⟨w, h2, h3⟩ := ho.reps ρ hρ
      rw [hl] at h2
      cases h2
      exact ⟨l, hl, h3⟩

omit [FloatOps F] in
theorem repsAll_foldl {vs : List (D F)} {l : List (List Nat × (List Nat → Option (Scal F)))}
    (h : List.Forall₂ (fun v q => Reps q.1 q.2 v) vs l) : ∀ {v : D F} {l₀}, RepsAll v l₀ →
      RepsAll (vs.foldl .pair v) (l₀ ++ l) := by
  induction h with
  | nil => intro v l₀ hv; simpa using hv
  | @cons w q vs l h1 _ ih =>
    intro v l₀ hv
    have := ih (v := .pair v w) (l₀ := l₀ ++ [q]) ⟨l₀, [q], rfl, hv, RepsAll.single.2 h1⟩
    simpa using this

omit [FloatOps F] in
theorem repsAll_pairAll {vs : List (D F)} {l : List (List Nat × (List Nat → Option (Scal F)))}
    (h : List.Forall₂ (fun v q => Reps q.1 q.2 v) vs l) (hne : vs ≠ []) : ∃ w, pairAll vs = some w ∧ RepsAll w l := by
  cases h with
  | nil => exact absurd rfl hne
  | @cons w q vs l h1 h2 => exact ⟨_, rfl, by simpa using repsAll_foldl h2 (RepsAll.single.2 h1)⟩

omit [FloatOps F] in
/-- The rows of vectors that have values. -/
theorem rowsOf_some {vecs : List (Option (D F))} {rows : List (D F)} (h : rowsOf vecs = some rows) :
    ∃ ls : List (List (D F)), ls ≠ [] ∧ List.Forall₂ (fun v l => v = some (.vec l)) vecs ls ∧
      (∀ l ∈ ls, l.length = rows.length) ∧ ∀ j < rows.length, rows[j]? = rowAt ls j := by
  unfold rowsOf at h
  simp only [Option.bind_eq_some_iff] at h
  obtain ⟨ls, h1, h2⟩ := h
  have hf : List.Forall₂ (fun v l => v = some (.vec l)) vecs ls := by
    refine (mapOpt_eq_forall h1).imp fun v l hv => ?_
    obtain ⟨u, rfl, hu⟩ := Option.bind_eq_some_iff.1 hv
    cases u with
    | vec l' => cases hu; rfl
    | sc _ => cases hu
    | pair _ _ => cases hu
  cases ls with
  | nil => cases h2
  | cons l ls =>
    simp only at h2
    split at h2
    · rename_i hl
      have hlen : rows.length = l.length := by simpa using mapOpt_length h2
      refine ⟨l :: ls, by simp, hf, fun l' hl' => ?_, fun j hj => ?_⟩
      · rw [hlen]
        rcases List.mem_cons.1 hl' with rfl | hl'
        · rfl
        · exact of_decide_eq_true (List.all_eq_true.1 hl l' hl')
      · have := mapOpt_getElem? h2 j
        rw [List.getElem?_range (by omega), Option.bind_some] at this
        exact this
    · cases h2

omit [FloatOps F] in
/-- One row. -/
theorem row_reps {n j : Nat} (hj : j < n) {ls : List (List (D F))} {Q : List (List Nat × (List Nat → Option (Scal F)))}
    (h : List.Forall₂ (fun l q => l.length = n ∧ Reps (n :: q.1) q.2 (.vec l)) ls Q) (hne : ls ≠ []) :
    ∃ w, rowAt ls j = some w ∧ RepsAll w (Q.map fun q => (q.1, fun jx => q.2 (j :: jx))) := by
  have key : ∃ es, Phi.mapOpt (fun l : List (D F) => l[j]?) ls = some es ∧ es.length = ls.length ∧
      List.Forall₂ (fun v q => Reps q.1 q.2 v) es (Q.map fun q => (q.1, fun jx => q.2 (j :: jx))) := by
    clear hne
    induction h with
    | nil => exact ⟨[], rfl, rfl, .nil⟩
    | @cons l q ls Q h1 _ ih =>
      obtain ⟨es, h2, h3, h4⟩ := ih
      obtain ⟨_, ws, e, h5, h6⟩ := h1.2
      cases e
      have hg : l[j]? = some l[j] := List.getElem?_eq_getElem (by omega)
      exact ⟨l[j] :: es, by simp [Phi.mapOpt, hg, h2], by simp [h3], .cons (h6 j _ hg) h4⟩
  obtain ⟨es, h1, h2, h3⟩ := key
  obtain ⟨w, h4, h5⟩ := repsAll_pairAll h3 (by rintro rfl; exact hne (List.length_eq_zero_iff.1 h2.symm))
  exact ⟨w, by rw [rowAt, h1]; exact h4, h5⟩

/-! ### Tuples of arrays -/

omit [FloatOps F] in
theorem ofArrs_pack {as : List (A F)} {N : Nat} (h : as.length = N) : ofArrs (decide (N = 1)) as = some (pack as) := by
  subst h
  rcases as with _ | ⟨a, _ | ⟨b, as⟩⟩
  · rfl
  · rfl
  · simp [ofArrs, pack]

omit [FloatOps F] in
theorem toArrs_pack {as : List (A F)} {N : Nat} (h : as.length = N) : toArrs (decide (N = 1)) (pack as) = some as := by
  subst h
  rcases as with _ | ⟨a, _ | ⟨b, as⟩⟩
  · rfl
  · rfl
  · simp [toArrs, pack]

omit [FloatOps F] in
theorem reduceOf_pack {axis n : Nat} {init : YVal F} {ws : List (A F)} {xy : YVal F → YVal F → Option (YVal F)}
    {single : Bool} (hs : single = decide (ws.length = 1))
    (hn : (ws.map fun a : A F => a.shape[axis]?).dedup = [some n]) :
    Yarr.reduceOf axis init (pack ws) xy = (toArrs single init).bind fun acc =>
      (Phi.mapOpt (NArr.unsqueeze [axis]) acc).bind fun acc =>
      (redLoop (fun x y => (ofArrs single x).bind fun x => (ofArrs single y).bind fun y =>
        (xy x y).bind (toArrs single)) axis (n + 1) n acc ws).bind fun acc =>
      (Phi.mapOpt (NArr.squeeze [axis]) acc).bind (ofArrs single) := by
  subst hs
  unfold Yarr.reduceOf
  rw [pack_arrs, hn]
  rcases ws with _ | ⟨a, _ | ⟨b, ws⟩⟩
  · rfl
  · rfl
  · have : decide ((a :: b :: ws).length = 1) = false := by simp
    rw [this]
    rfl

theorem dedup_const {β : Type} [DecidableEq β] {l : List β} {x : β} (h : ∀ y ∈ l, y = x) (hne : l ≠ []) :
    l.dedup = [x] := by
  induction l with
  | nil => exact absurd rfl hne
  | cons y l ih =>
    obtain rfl := h y (by simp)
    by_cases hl : l = []
    · subst hl; rfl
    · have := ih (fun z hz => h z (by simp [hz])) hl
      obtain ⟨z, hz⟩ := List.exists_mem_of_ne_nil l hl
      have hy : y ∈ l := h z (by simp [hz]) ▸ hz
      rw [List.dedup_cons_of_mem hy, this]

/-- The rows of the vectors are in their arrays, along the axis after `axes`. -/
theorem rows_hold (hσ : Positive (inScope S) σ) {B : Nat} (hB : Sym.idx B ∉ S) {axes : List Nat}
    (hax : ∀ i ∈ axes, Sym.idx i ∈ S) {val : Expr F → (Nat → Nat) → Option (D F)} {vs : List (Expr F)} {P : List (A F × List Nat)}
    {R : (Nat → Nat) → List (D F)} (hne : vs ≠ []) (hR : Local S R)
    (h1 : ∀ p ∈ P, p.1.shape = axes.map σ ++ p.2)
    (h2 : ∀ ρ, Valid (inScope S) σ ρ → List.Forall₂ (fun v (p : A F × List Nat) => ∃ l, val v ρ = some (.vec l) ∧
          Reps p.2 (fun jx => p.1.get? (axes.map ρ ++ jx)) (.vec l)) vs P)
    (h3 : ∀ ρ, Valid (inScope S) σ ρ → rowsOf (vs.map fun v => val v ρ) = some (R ρ)) :
    ∃ n, 0 < n ∧ (∀ p ∈ P, p.2 = n :: p.2.tail) ∧ (∀ ρ, Valid (inScope S) σ ρ → (R ρ).length = n) ∧
      Holds (insert (.idx B) S) (upd σ B n) (axes ++ [B]) (P.map Prod.fst) (P.map fun p => p.2.tail)
        fun ρ => (R ρ)[ρ B]? := by
  have key : ∀ ρ, Valid (inScope S) σ ρ → ∃ ls : List (List (D F)), ls ≠ [] ∧
      (∀ j < (R ρ).length, (R ρ)[j]? = rowAt ls j) ∧
      List.Forall₂ (fun l (p : A F × List Nat) => l.length = (R ρ).length ∧ p.2 = (R ρ).length :: p.2.tail ∧
        0 < (R ρ).length ∧ Reps p.2 (fun jx => p.1.get? (axes.map ρ ++ jx)) (.vec l)) ls P := by
    intro ρ hρ
    obtain ⟨ls, g1, g2, g3, g4⟩ := rowsOf_some (h3 ρ hρ)
    refine ⟨ls, g1, g4, ?_⟩
    have g5 := h2 ρ hρ
    clear g1 g4 hne h1 h2
    rw [List.forall₂_map_left_iff] at g2
    generalize (R ρ).length = m at *
    clear h3
    induction g5 generalizing ls with
    | nil => cases g2; exact .nil
    | @cons v p vs P g6 _ ih =>
      cases g2 with
      | @cons _ l _ ls g7 g8 =>
        refine .cons ?_ (ih ls g8 fun l hl => g3 l (by simp [hl]))
        obtain ⟨l', e1, e2⟩ := g6
        rw [g7] at e1
        cases e1
        have hl := g3 l (by simp)
        obtain ⟨k, t, hk, e3⟩ : ∃ k t, p.2 = k :: t ∧ l.length = k := by
          match hp : p.2, e2 with
          | [], e2 => obtain ⟨_, e, _⟩ := e2; cases e
          | k :: t, e2 => obtain ⟨_, _, e, h, _⟩ := e2; cases e; exact ⟨k, t, rfl, h⟩
        have : k = m := e3.symm.trans hl
        subst this
        exact ⟨hl, by rw [hk]; rfl, e2.pos k (by rw [hk]; simp), e2⟩
  obtain ⟨ls0, -, -, k0⟩ := key _ (valid_zero hσ)
  have hPne : ∃ p, p ∈ P := by
    have hlen := (h2 _ (valid_zero hσ)).length_eq
    cases P with
    | nil => exact absurd (List.length_eq_zero_iff.1 (by simpa using hlen)) hne
    | cons p P => exact ⟨p, by simp⟩
  have mem : ∀ {ls : List (List (D F))} {Q : List (A F × List Nat)} {r : List (D F) → A F × List Nat → Prop},
      List.Forall₂ r ls Q → ∀ p ∈ Q, ∃ l, r l p := by
    intro ls Q r h
    induction h with
    | nil => simp
    | @cons l p _ _ h _ ih =>
      intro q hq
      rcases List.mem_cons.1 hq with rfl | hq
      · exact ⟨l, h⟩
      · exact ih q hq
  obtain ⟨p0, hp0⟩ := hPne
  have hlen : ∀ ρ, Valid (inScope S) σ ρ → (R ρ).length = (R fun _ => 0).length := by
    intro ρ hρ
    obtain ⟨ls, -, -, k1⟩ := key ρ hρ
    obtain ⟨_, _, e1, _⟩ := mem k1 p0 hp0
    obtain ⟨_, _, e2, _⟩ := mem k0 p0 hp0
    rw [e1] at e2
    exact (List.cons.inj e2).1
  have htl : ∀ p ∈ P, p.2 = (R fun _ => 0).length :: p.2.tail := fun p hp => by
    obtain ⟨_, _, e1, _⟩ := mem k0 p hp
    exact e1
  have hBax : B ∉ axes := fun hm => hB (hax B hm)
  refine ⟨(R fun _ => 0).length, ?_, htl, hlen, ?_, fun ρ hρ => ?_⟩
  · obtain ⟨_, _, _, h, _⟩ := mem k0 p0 hp0
    exact h
  · rw [List.forall₂_map_left_iff, List.forall₂_map_right_iff, List.forall₂_same]
    intro p hp
    rw [h1 p hp, map_upd hBax, List.append_assoc, List.singleton_append, ← htl p hp]
  · obtain ⟨hv, hj⟩ := (valid_batch hB).1 hρ
    obtain ⟨ls, g1, g2, g3⟩ := key ρ hv
    rw [hlen ρ hv] at g2 g3
    dsimp only
    rw [g2 _ hj]
    obtain ⟨w, g4, g5⟩ := row_reps (j := ρ B) hj
      (Q := P.map fun p => (p.2.tail, fun jx => p.1.get? (axes.map ρ ++ jx))) (by
        rw [List.forall₂_map_right_iff]
        refine g3.imp fun l p h => ?_
        have h4 := h.2.2.2
        rw [h.2.1] at h4
        exact ⟨h.1, h4⟩) g1
    refine ⟨w, g4, ?_⟩
    rw [views_pairs (fun s => s.tail)]
    rw [List.map_map] at g5
    simpa [map_last, Function.comp_def] using g5

/-- What the checked interpreter computes for a reduction. -/
theorem check_reduce_some {x y : Nat} {z b : Expr F} {vs : List (Expr F)} {sz : Nat → Nat} {env : Env (D F)} {w : D F}
    (h : check o I true (node (.reduce x y) (z :: b :: vs)) sz env = some w) :
    env (.idx (o.batch x)) = none ∧ absent (.idx (o.batch x)) b = true ∧ ∃ a rows τ,
      check o I true z sz env = some a ∧ rowsOf (vs.map fun v => check o I true v sz env) = some rows ∧
      HasType a τ ∧ (∀ r ∈ rows, HasType r τ) ∧
      treeReduce (fun p q => check o I true b (upd sz (o.batch x) 1)
        (((env.set (.idx (o.batch x)) (some (.int 0))).set (.var x) (some p)).set (.var y) (some q))) a rows = some w := by
  rw [check_node _ _ _ _ _ rfl] at h
  simp only [List.map_cons, checkDen] at h
  split at h
  swap
  · cases h
  rename_i hB
  simp only [Option.bind_eq_some_iff, reduceCheck] at h
  obtain ⟨a, h1, rows, h2, h⟩ := h
  split at h
  · cases h
  rename_i hτ
  simp only [Option.bind_eq_some_iff] at h
  obtain ⟨t, h3, w', _, h4⟩ := h
  split at h4
  swap
  · cases h4
  rename_i hs
  cases h4
  have := o.same_eq _ _ hs
  subst this
  simp only [true_and, Bool.not_eq_false] at hτ
  obtain ⟨τ, _, hτ⟩ := (Option.any_eq_true _ _).1 hτ
  simp only [Bool.and_eq_true, List.all_eq_true, hasTy_iff] at hτ
  refine ⟨by simpa using hB.1, hB.2, a, rows, τ, h1, ?_, hτ.1, hτ.2, h3⟩
  simpa only [List.map_map, Function.comp_def] using h2

/-- A reduction (`phi_to_yarr.py:192-223`). -/
theorem reduce_correct {n : Nat} (ih : Correct o I J n) (hstrict : o.strict = true)
    (hE : EnvRel J S σ sizes vaxes E yenv) {x y : Nat} {z b : Expr F} {vs : List (Expr F)} {X : Axial F}
    (hl : lexical (node (.reduce x y) (z :: b :: vs)) S = true)
    (hdef : ∀ ρ, Valid (inScope S) σ ρ → ∃ v, check o I true (node (.reduce x y) (z :: b :: vs)) σ (E ρ) = some v)
    (hx : reduceCode o (compile o n) sizes vaxes x y z b vs = some X) :
    Means J yenv (inScope S) σ X fun ρ => check o I true (node (.reduce x y) (z :: b :: vs)) σ (E ρ) := by
  rw [lexical_node] at hl
  simp only [List.map_cons, lexStep, Bool.and_eq_true, decide_eq_true_eq] at hl
  obtain ⟨⟨⟨⟨⟨hlz, hlv⟩, hxS⟩, hyS⟩, hxy⟩, hlb⟩ := hl
  replace hlv : ∀ v ∈ vs, lexical v S = true := fun v hv => List.all_eq_true.1 hlv _ (List.mem_map.2 ⟨v, hv, rfl⟩)
  unfold reduceCode at hx
  simp only [Option.bind_eq_some_iff] at hx
  obtain ⟨init, hinit, vecs, hvecs, pre, hpre, body, hbody, hx⟩ := hx
  split at hx
  · cases hx
  rename_i hst
  simp only [hstrict, true_and, not_or, not_not] at hst
  obtain ⟨hbax, hsB⟩ := hst
  simp only [Option.bind_eq_some_iff] at hx
  obtain ⟨z', hz', vs', hvs', hx⟩ := hx
  split at hx
  · cases hx
  rename_i hvne
  rw [hstrict] at hz'
  simp only [hstrict] at hvs'
  generalize hBB : o.batch x = B at *
  have hsB : sizes B = none := by simpa using hsB
  -- the index of the batch
  obtain ⟨w0, hw0⟩ := hdef _ (valid_zero hE.pos)
  have hc0 := check_reduce_some hw0
  rw [hBB] at hc0
  obtain ⟨hB0, habs, -⟩ := hc0
  have hB : Sym.idx B ∉ S := fun hm => by rw [hE.idx _ B hm] at hB0; cases hB0
  -- the axes
  have hV : ∀ v i, i ∈ vaxes v ↔ i ∈ (fun v => (vaxes v).toFinset) v := fun v i => List.mem_toFinset.symm
  have hVS : ∀ v i, i ∈ (fun v => (vaxes v).toFinset) v → Sym.idx i ∈ S :=
    fun v i hi => hE.axes v i (List.mem_toFinset.1 hi)
  have hupd : ∀ (l : List Nat), ∀ u i, i ∈ upd (upd vaxes x l) y l u ↔
      i ∈ upd (upd (fun v => (vaxes v).toFinset) x l.toFinset) y l.toFinset u := by
    intro l u i
    unfold upd
    split
    · exact List.mem_toFinset.symm
    · split <;> exact List.mem_toFinset.symm
  have hzS : ∀ i ∈ init.axes, Sym.idx i ∈ S := fun i hi =>
    axesOf_scope o z _ S hlz hVS i (((compile_axes o n _ _ _ _ _ hV hinit).2 i).1 hi)
  have hvS : ∀ v ∈ vecs, ∀ i ∈ v.axes, Sym.idx i ∈ S := by
    intro v hv i hi
    obtain ⟨t, ht, hc⟩ := forall₂_mem_left (mapOpt_eq_forall hvecs).flip hv
    exact axesOf_scope o t _ S (hlv t ht) hVS i (((compile_axes o n _ _ _ _ _ hV hc).2 i).1 hi)
  obtain ⟨hpn, hpa⟩ := compile_axes o n _ _ _ _ _ (hupd _) hpre
  have hpS : ∀ i ∈ pre.axes, Sym.idx i ∈ S := by
    intro i hi
    have hS : ∀ j ∈ alignment (init.axes :: vecs.map Axial.axes), Sym.idx j ∈ S := by
      intro j hj
      obtain ⟨l, hl, hj⟩ := mem_alignment.1 hj
      rcases List.mem_cons.1 hl with rfl | hl
      · exact hzS j hj
      · obtain ⟨v, hv, rfl⟩ := List.mem_map.1 hl
        exact hvS v hv j hj
    have := axesOf_scope o b _ _ hlb (fun v j hj => ?_) i ((hpa i).1 hi)
    · simpa using this
    · refine Finset.mem_insert_of_mem (Finset.mem_insert_of_mem ?_)
      unfold upd at hj
      split at hj
      · exact hS j (List.mem_toFinset.1 hj)
      · split at hj
        · exact hS j (List.mem_toFinset.1 hj)
        · exact hVS v j hj
  -- the operands
  have hval : ∀ ρ, Valid (inScope S) σ ρ → ∃ a rows τ,
      check o I true z σ (E ρ) = some a ∧ rowsOf (vs.map fun v => check o I true v σ (E ρ)) = some rows ∧
      HasType a τ ∧ (∀ r ∈ rows, HasType r τ) ∧
      treeReduce (fun p q => check o I true b (upd σ B 1)
        ((((E ρ).set (.idx B) (some (.int 0))).set (.var x) (some p)).set (.var y) (some q))) a rows =
          check o I true (node (.reduce x y) (z :: b :: vs)) σ (E ρ) := by
    intro ρ hρ
    obtain ⟨w, hw⟩ := hdef ρ hρ
    obtain ⟨-, -, a, rows, τ, h1, h2, h3, h4, h5⟩ := check_reduce_some hw
    rw [hBB] at h5
    exact ⟨a, rows, τ, h1, h2, h3, h4, h5.trans hw.symm⟩
  obtain ⟨hz', hzc⟩ := repeated_some hz'
  obtain ⟨hzp, hmz⟩ := (ih hE hlz (fun ρ hρ => by obtain ⟨a, _, _, h, _⟩ := hval ρ hρ; exact ⟨a, h⟩) hinit).aligned
    hE.pos hz' hpn hpS (fun i e he => hE.size i e he yenv fun _ _ => rfl) hzc
  obtain ⟨-, accs, as0, hz1, hz2, -, hz3⟩ := hmz.holds
  have hvec : ∀ v ∈ vs, ∀ ρ, Valid (inScope S) σ ρ → ∃ l, check o I true v σ (E ρ) = some (.vec l) := by
    intro v hv ρ hρ
    obtain ⟨_, rows, _, _, h, _⟩ := hval ρ hρ
    obtain ⟨ls, _, h1, _⟩ := rowsOf_some h
    rw [List.forall₂_map_left_iff] at h1
    obtain ⟨l, _, e⟩ := forall₂_mem_left h1 hv
    exact ⟨l, e⟩
  have hmv : List.Forall₂ (fun v v' => Means J yenv (inScope S) σ ⟨pre.axes, v'⟩ fun ρ => check o I true v σ (E ρ)) vs vs' := by
    have h1 := mapOpt_eq_forall hvecs
    have h2 := mapOpt_eq_forall hvs'
    clear hvecs hvs' hvne hval hdef hw0 hpre hvS hx hpa
    induction h1 generalizing vs' with
    | nil => cases h2; exact .nil
    | @cons v t vs ts h3 _ ih' =>
      cases h2 with
      | @cons _ v' _ vs' h4 h5 =>
        refine .cons ?_ (ih' (fun u hu => hlv u (by simp [hu])) _ (fun u hu => hvec u (by simp [hu])) h5)
        obtain ⟨h6, h7⟩ := repeated_some h4
        exact ((ih hE (hlv v (by simp)) (fun ρ hρ => by
          obtain ⟨l, hl⟩ := hvec v (by simp) ρ hρ; exact ⟨_, hl⟩) h3).aligned
            hE.pos h6 hpn hpS (fun i e he => hE.size i e he yenv fun _ _ => rfl) h7).2
  have hvsne : vs ≠ [] := by
    rintro rfl
    cases hmv
    exact hvne rfl
  obtain ⟨P, hP1, hP2, hP3, hP4⟩ := vecs_hold (val := fun v ρ => check o I true v σ (E ρ)) hE.pos hmv hvec
  have hRl : Local S fun ρ => (rowsOf (vs.map fun v => check o I true v σ (E ρ))).getD [] := fun ρ ρ' hρ => by
    simp only [hE.locl ρ ρ' hρ]
  obtain ⟨N, hN, hPn, hRn, hRh⟩ := rows_hold (R := fun ρ => (rowsOf (vs.map fun v => check o I true v σ (E ρ))).getD [])
    hE.pos hB hpS hvsne hRl hP3 hP4 fun ρ hρ => by
      obtain ⟨_, rows, _, _, h, _⟩ := hval ρ hρ
      simp only [h, Option.getD_some]
  -- types
  obtain ⟨rfl, -, τ, hτ, -⟩ := mk?_eq_some hx
  have hτ' := hτ
  rw [Yarr.typeOf_node] at hτ'
  simp only [List.map] at hτ'
  obtain ⟨β, -, hty1, hty2, -, hty3⟩ := typeStep_reduce hτ'
  have hrk : accs.map (fun a => a.rank + 1) = β.map Phi.Arr.rank := by
    have := (valRank_succ hty3).1 (hz2 τ _ hty1 hz1)
    rwa [pack_arrs] at this
  have hla : accs.length = β.length := by simpa using congrArg List.length hrk
  have hlP : P.length = β.length := by
    rw [← hla]
    obtain ⟨a, rows, t, h1, h2, h3, h4, -⟩ := hval _ (valid_zero hE.pos)
    obtain ⟨u, e1, e2⟩ := hz3.2 _ (valid_zero hE.pos)
    cases h1.symm.trans e1
    obtain ⟨r, e3, e4⟩ := hRh.2 (fun _ => 0) ((valid_batch hB).2 ⟨valid_zero hE.pos, hN⟩)
    simp only [h2, Option.getD_some] at e3
    obtain ⟨p, hp, hp'⟩ := e2.prim h3
    obtain ⟨q, hq, hq'⟩ := e4.prim (h4 r (List.mem_of_getElem? e3))
    rw [hp] at hq
    cases hq
    have := congrArg List.length (hp'.symm.trans hq')
    simp only [List.length_map, views_length] at this
    have hz4 := hz3.1.length_eq
    omega
  -- the loop
  obtain ⟨accs1, hu1, hu2, hu3⟩ := hz3.unsqueeze hB hpS
  have hrk1 : accs1.map NArr.rank = β.map Phi.Arr.rank := by
    rw [← hrk]
    have := mapOpt_eq_forall hu1
    clear hu1 hu2 hu3 hz1 hz3 hrk hla
    induction this with
    | nil => rfl
    | cons h1 _ ih => rw [List.map_cons, List.map_cons, ih, NArr.rank_unsqueeze h1]; rfl
  have hop : Local S fun ρ p q => check o I true b (upd σ B 1)
      ((((E ρ).set (.idx B) (some (.int 0))).set (.var x) (some p)).set (.var y) (some q)) := fun ρ ρ' hρ => by
    simp only [hE.locl ρ ρ' hρ]
  have hBax : B ∉ pre.axes := fun hm => hB (hpS B hm)
  have hax : ∀ i ∈ pre.axes ++ [B], Sym.idx i ∈ insert (Sym.idx B) S := by
    intro i hi
    rcases List.mem_append.1 hi with h | h
    · exact Finset.mem_insert_of_mem (hpS i h)
    · rw [List.mem_singleton.1 h]; exact Finset.mem_insert_self _ _
  have hlb' : lexical b (insert (Sym.var y) (insert (Sym.var x) (insert (Sym.idx B) S))) = true := by
    have := lexical_insert (s := Sym.idx B) b _ (by simpa [absent] using (of_decide_eq_true habs).2) hlb
    rw [Finset.insert_comm (Sym.idx B), Finset.insert_comm (Sym.idx B), Finset.insert_comm (Sym.var x)] at this
    exact this
  obtain ⟨cs, us, hr1, hr2, hr3, hr4⟩ := red_loop (N := β.length) (rs := β.map Phi.Arr.rank)
    (XY := fun l r => (ofArrs (decide (β.length = 1)) l).bind fun p => (ofArrs (decide (β.length = 1)) r).bind fun q =>
      (Yarr.eval J body.expr ((yenv.set (.var x) (some p)).set (.var y) (some q))).bind
        (toArrs (decide (β.length = 1))))
    hE.pos hB hpS hop (by
      intro m hm p q as bs ss tt hlp hlq hNa hNb hha hhb hd
      have hE1 := hE.batch hB hm hsB
      have hE2 := hE1.bind (v := x) (by simpa using hxS) hax hha hlp
      have hsub : insert (Sym.idx B) S ⊆ insert (Sym.var x) (insert (Sym.idx B) S) := Finset.subset_insert _ _
      have hE3 := hE2.bind (v := y) (by simpa [hxy.symm] using hyS) (fun i hi => hsub (hax i hi))
        (axes := pre.axes ++ [B]) (as := bs) (ss := tt) (w := q)
        (by unfold Holds; rw [inScope_insert_var]; exact hhb) (hlq.mono hsub)
      have hv : ∀ ρ, Valid (inScope (insert (.idx B) S)) (upd σ B m) ρ →
          check o I true b (upd σ B m) ((((E ρ).set (.idx B) (some (.int (ρ B)))).set (.var x) (p ρ)).set (.var y) (q ρ)) =
          (p ρ).bind fun a => (q ρ).bind fun c => check o I true b (upd σ B 1)
            ((((E ρ).set (.idx B) (some (.int 0))).set (.var x) (some a)).set (.var y) (some c)) := by
        intro ρ hρ
        obtain ⟨a, ha, _⟩ := hha.2 ρ hρ
        obtain ⟨c, hc, _⟩ := hhb.2 ρ hρ
        rw [ha, hc]
        refine check_absent b habs ⟨fun i hi => by simp [upd, hi], fun s hs => ?_, by simp [Env.set], by simp [Env.set]⟩
        simp [Env.set, hs]
      have hmb := ih hE3 hlb' (fun ρ hρ => by
        rw [inScope_insert_var, inScope_insert_var] at hρ
        obtain ⟨w, hw⟩ := hd ρ hρ
        exact ⟨w, (hv ρ hρ).trans hw⟩) hbody
      rw [inScope_insert_var, inScope_insert_var] at hmb
      obtain ⟨-, cs, us, h1, h2, -, h3⟩ := hmb.holds
      rw [hbax] at h3
      have hcr := h2 β _ hty2 h1
      unfold ValRank at hcr
      rw [pack_arrs] at hcr
      have hcl : cs.length = β.length := by simpa using congrArg List.length hcr
      refine ⟨cs, us, ?_, hcl, hcr, h3.congr fun ρ hρ => hv ρ hρ⟩
      simp only [ofArrs_pack hNa, ofArrs_pack hNb, Option.bind_some, h1, toArrs_pack hcl])
    (N + 1) N (fun ρ => check o I true z σ (E ρ))
    (fun ρ => (rowsOf (vs.map fun v => check o I true v σ (E ρ))).getD []) accs1 (P.map Prod.fst) as0 _ hN
    (fun ρ ρ' hρ => by simp only [hE.locl ρ ρ' hρ]) hRl (hu2.trans hla) (by simpa using hlP) hrk1 hu3 hRh hRn
    (fun ρ hρ => by
      obtain ⟨w, hw⟩ := hdef ρ hρ
      obtain ⟨a, rows, _, h1, h2, -, -, h5⟩ := hval ρ hρ
      have hn := hRn ρ hρ
      simp only [h2, Option.getD_some] at hn
      refine ⟨w, ?_⟩
      simp only [h1, h2, Option.getD_some, Option.bind_some]
      rw [← hn]
      exact h5.trans hw)
  obtain ⟨ds, hs1, hs2, hs3⟩ := hr4.squeeze hB hpS
  have hws : ((P.map Prod.fst).map fun a : A F => a.shape[pre.axes.length]?).dedup = [some N] := by
    refine dedup_const (fun s hs => ?_) ?_
    · obtain ⟨a, ha, rfl⟩ := List.mem_map.1 hs
      obtain ⟨p, hp, rfl⟩ := List.mem_map.1 ha
      rw [hP3 p hp, List.getElem?_append_right (by simp), hPn p hp]
      simp
    · intro e
      have : P = [] := by simpa using e
      rw [this] at hP4
      cases hP4 _ (valid_zero hE.pos)
      exact hvsne rfl
  have hev : Yarr.eval J (node (.reduce x y pre.axes.length) [z', body.expr, tupleMaybe vs']) yenv = some (pack ds) := by
    rw [Yarr.eval_node]
    simp only [List.map, Yarr.den, hz1, eval_tupleMaybe hP1, Option.bind_some]
    rw [reduceOf_pack (single := decide (β.length = 1)) (by rw [List.length_map, hlP]) hws, toArrs_pack hla]
    simp only [Option.bind_some, hu1]
    rw [hr1]
    simp only [Option.bind_some, hs1]
    exact ofArrs_pack (hs2.trans hr2)
  refine ⟨hpS, ds, us, ⟨hev, ?_, hpn, hs3.1⟩, fun ρ hρ => ?_⟩
  · intro τ' v h1 h2
    rw [hτ] at h1
    rw [hev] at h2
    cases h1
    cases h2
    rw [valRank_succ hty3, pack_arrs, ← hr3]
    have := mapOpt_eq_forall hs1
    clear hs1 hs2 hs3 hev hr4 hr3 hr2 hr1
    induction this with
    | nil => rfl
    | cons h1 _ ih => rw [List.map_cons, List.map_cons, ih, ← NArr.rank_squeeze h1]; rfl
  · obtain ⟨w, h1, h2⟩ := hs3.2 ρ hρ
    refine ⟨w, ?_, h2⟩
    obtain ⟨a, rows, _, g1, g2, -, -, g5⟩ := hval ρ hρ
    have hn := hRn ρ hρ
    simp only [g2, Option.getD_some] at hn
    have hE0 : E (upd ρ B 0) = E ρ := local_upd hE.locl hB ρ 0
    simp only [hE0, g1, g2, Option.getD_some, Option.bind_some] at h1
    refine g5.symm.trans ?_
    rw [← h1, ← hn]
    rfl

end Verif.Codegen
