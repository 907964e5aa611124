import Verif.Codegen.Scoping
import Verif.Codegen.MemoValid

/-! Every binder in the code of the compiler with its table is the code of one binder of the program. -/

set_option linter.unusedSectionVars false

namespace Verif.Codegen
open Verif.Phi Verif.Term Verif.Yarr Verif.Arr Verif.Midend
variable {F : Type} {o : Opts F} {N : Expr F → Prop} {inputs : Finset Sym} {P : YExpr F → Prop} {E : Expr F}

/-- All binders in the code are the code of binders in the table. -/
def FromTable (T : Table F) (c : YExpr F) : Prop :=
  ∀ h ts, Occurs (node h ts) c → Yarr.Head.captured h ≠ ∅ →
    ∃ B x, (B, x) ∈ T ∧ x.expr = node h ts ∧ Yarr.Head.captured h = Phi.Head.captured B.head ∧ wt B.head ≠ 0

theorem kept_fromTable (T : Table F) : Kept (FromTable T) := by
  intro h ts hh hts g us ho hg
  have hc : Yarr.Head.captured h = ∅ := by cases h <;> first | rfl | cases hh
  cases ho with
  | refl => exact absurd hc hg
  | child ht ho => exact hts _ ht g us ho hg

theorem fromTable_var (T : Table F) (v : Nat) (p : PTy) : FromTable T (node (.var v p) []) := by
  intro g us ho hg
  cases ho with
  | refl => exact absurd rfl hg
  | child ht ho => cases ht

theorem FromTable.mono {T T' : Table F} (hT : T ⊆ T') {c : YExpr F} (h : FromTable T c) : FromTable T' c := by
  intro g us ho hg
  obtain ⟨B, x, h1, h2⟩ := h g us ho hg
  exact ⟨B, x, hT h1, h2⟩

/-- The code of a node: one binder for a binder, and otherwise no new binder. -/
def Result (h : Phi.Head F) (P : YExpr F → Prop) (c : YExpr F) : Prop :=
  P c ∨ ∃ g us, c = node g us ∧ Yarr.Head.captured g = Phi.Head.captured h ∧ wt h ≠ 0 ∧ ∀ t ∈ us, P t

/-- A request for the node `E`. -/
structure Rq (N : Expr F → Prop) (E e : Expr F) : Prop where
  known : Known N e
  scope : Scoped e
  le : height e ≤ height E
  lt : wt E.head ≠ 0 → height e < height E

/-- The requests for the node `E`, and what it makes of the answers. -/
inductive Good (N : Expr F → Prop) (E : Expr F) : (YExpr F → Prop) → Ask F (Axial F) → Prop
  | ret {P : YExpr F → Prop} {r : Option (Axial F)} : (∀ x, r = some x → Result E.head P x.expr) → Good N E P (.ret r)
  | ask {P : YExpr F → Prop} {s : Nat → Option (YExpr F)} {v : Nat → List Nat} {e : Expr F} {k : Axial F → Ask F (Axial F)} :
      Rq N E e → (∀ i n, s i = some n → P n) →
      (∀ P' : YExpr F → Prop, Kept P' → (∀ v p, P' (node (.var v p) [])) → (∀ c, P c → P' c) → ∀ x : Axial F, P' x.expr → Good N E P' (k x)) →
      Good N E P (.ask true s v e k)
  | try_ {P : YExpr F → Prop} {s : Nat → Option (YExpr F)} {v : Nat → List Nat} {e : Expr F} {k : Axial F → Ask F (Axial F)} :
      Rq N E e → (∀ i n, s i = some n → P n) → (∀ x : Axial F, Good N E P (k x)) → Good N E P (.ask false s v e k)

/-- A property of code that is kept, and holds for variables. -/
structure Kind (P : YExpr F → Prop) : Prop where
  kept : Kept P
  var : ∀ v p, P (node (.var v p) [])

section
variable {s : Nat → Option (YExpr F)} {v : Nat → List Nat}

theorem Good.one {e : Expr F} {f : Axial F → Ask F (Axial F)} (hr : Rq N E e) (hs : ∀ i n, s i = some n → P n)
    (hf : ∀ P' : YExpr F → Prop, Kind P' → (∀ c, P c → P' c) → ∀ x : Axial F, P' x.expr → Good N E P' (f x)) :
    Good N E P ((Ask.one s v e).bind f) :=
  .ask hr hs fun P' h1 h2 h3 x hx => hf P' ⟨h1, h2⟩ h3 x hx

theorem Good.done {r : Option (Axial F)} (h : ∀ x, r = some x → P x.expr) : Good N E P (.ret r) :=
  .ret fun x hx => .inl (h x hx)

theorem Good.pure {β : Type} {r : Option β} {f : β → Ask F (Axial F)} (h : ∀ x, r = some x → Good N E P (f x)) :
    Good N E P ((Ask.pure r).bind f) := by
  cases r with
  | none => exact .ret fun x hx => by cases hx
  | some x => exact h x rfl

theorem Good.map {l : List (Expr F)} (hl : ∀ e ∈ l, Rq N E e) : ∀ {P : YExpr F → Prop} {f : List (Axial F) → Ask F (Axial F)},
    Kind P → (∀ i n, s i = some n → P n) →
    (∀ P' : YExpr F → Prop, Kind P' → (∀ c, P c → P' c) → ∀ xs : List (Axial F), (∀ x ∈ xs, P' x.expr) → Good N E P' (f xs)) →
    Good N E P ((Ask.map (Ask.one s v) l).bind f) := by
  induction l with
  | nil => intro P f hP _ hf; exact hf P hP (fun _ h => h) [] (by simp)
  | cons e l ih =>
    intro P f hP hs hf
    unfold Ask.map
    rw [Ask.bind_assoc]
    refine .one (hl e (by simp)) hs fun P' hP' hle x hx => ?_
    rw [Ask.bind_assoc]
    refine ih (fun e he => hl e (by simp [he])) hP' (fun i n h => hle n (hs i n h)) fun P'' hP'' hle' xs hxs => ?_
    refine hf P'' hP'' (fun c hc => hle' c (hle c hc)) (x :: xs) fun y hy => ?_
    rcases List.mem_cons.1 hy with rfl | hy
    · exact hle' _ hx
    · exact hxs y hy

theorem Good.sums {l : List (Nat × Expr F)} (hl : ∀ q ∈ l, Rq N E q.2) :
    ∀ {P : YExpr F → Prop} {f : List (Nat × YExpr F) → Ask F (Axial F)}, Kind P → (∀ i n, s i = some n → P n) →
    (∀ P' : YExpr F → Prop, Kind P' → (∀ c, P c → P' c) → ∀ ns : List (Nat × YExpr F), (∀ q ∈ ns, P' q.2) → Good N E P' (f ns)) →
    Good N E P ((Ask.map (fun q : Nat × Expr F => (Ask.one s v q.2).bind fun x =>
      .ret (x.normal.map fun n => (q.1, n))) l).bind f) := by
  induction l with
  | nil => intro P f hP _ hf; exact hf P hP (fun _ h => h) [] (by simp)
  | cons e l ih =>
    intro P f hP hs hf
    unfold Ask.map
    rw [Ask.bind_assoc, Ask.bind_assoc]
    refine .one (hl e (by simp)) hs fun P' hP' hle x hx => ?_
    refine Good.pure (r := x.normal.map fun n => (e.1, n)) fun y hy => ?_
    obtain ⟨m, hm, rfl⟩ := Option.map_eq_some_iff.1 hy
    have hm' : P' m := built_normal hP'.kept hx hm
    rw [Ask.bind_assoc]
    refine ih (fun e he => hl e (by simp [he])) hP' (fun i n h => hle n (hs i n h)) fun P'' hP'' hle' ns hns => ?_
    refine hf P'' hP'' (fun c hc => hle' c (hle c hc)) ((e.1, m) :: ns) fun y hy => ?_
    rcases List.mem_cons.1 hy with rfl | hy
    · exact hle' _ hm'
    · exact hns y hy

theorem Good.products {l : List (List Nat × List (Expr F))} (hl : ∀ q ∈ l, ∀ e ∈ q.2, Rq N E e) :
    ∀ {P : YExpr F → Prop} {f : List (List (Axial F)) → Ask F (Axial F)}, Kind P → (∀ i n, s i = some n → P n) →
    (∀ P' : YExpr F → Prop, Kind P' → (∀ c, P c → P' c) → ∀ xss : List (List (Axial F)), (∀ xs ∈ xss, ∀ x ∈ xs, P' x.expr) →
      Good N E P' (f xss)) →
    Good N E P ((Ask.map (fun p : List Nat × List (Expr F) => Ask.map (Ask.one s v) p.2) l).bind f) := by
  induction l with
  | nil => intro P f hP _ hf; exact hf P hP (fun _ h => h) [] (by simp)
  | cons e l ih =>
    intro P f hP hs hf
    unfold Ask.map
    rw [Ask.bind_assoc]
    refine .map (hl e (by simp)) hP hs fun P' hP' hle x hx => ?_
    rw [Ask.bind_assoc]
    refine ih (fun e he => hl e (by simp [he])) hP' (fun i n h => hle n (hs i n h)) fun P'' hP'' hle' ns hns => ?_
    refine hf P'' hP'' (fun c hc => hle' c (hle c hc)) (x :: ns) fun y hy => ?_
    rcases List.mem_cons.1 hy with rfl | hy
    · exact fun z hz => hle' _ (hx z hz)
    · exact hns y hy

/-- A binder. -/
theorem result_binder {g : Yarr.Head F} {us : List (YExpr F)} {axes : List Nat} {x : Axial F}
    (hx : Axial.mk? axes (node g us) = some x) (hg : Yarr.Head.captured g = Phi.Head.captured E.head) (hw : wt E.head ≠ 0)
    (hus : ∀ t ∈ us, P t) : Result E.head P x.expr := .inr ⟨g, us, mk?_expr hx, hg, hw, hus⟩

variable [FloatOps F]

/-- The requests for a node. -/
theorem stepGood (ho : Once o N inputs) {h : Phi.Head F} {ts : List (Expr F)} (hk : Known N (node h ts))
    (hsc : Scoped (node h ts)) (hP : Kind P) (hs : ∀ i n, s i = some n → P n) :
    Good N (node h ts) P (stepAsk o s v h ts) := by
  have child : ∀ t ∈ ts, Rq N (node h ts) t := fun t ht =>
    ⟨hk.child ht, hsc.children t ht, (Nat.le_add_left _ _).trans (height_child ht), fun hw => by
      have := height_child (h := h) ht
      have hw : wt h ≠ 0 := hw
      omega⟩
  unfold stepAsk
  split
  · refine .done fun x h => ?_
    simp only [Option.bind_eq_some_iff] at h
    obtain ⟨a, -, p, -, h⟩ := h
    exact built_mk hP.kept h (built_leaf hP.kept rfl)
  · refine .done fun x h => ?_
    simp only [Option.bind_eq_some_iff] at h
    obtain ⟨n, hn, h⟩ := h
    exact built_mk hP.kept h (built_one hP.kept rfl (hs _ _ hn))
  · refine .done fun x h => ?_
    simp only [Option.bind_eq_some_iff] at h
    obtain ⟨a, -, p, -, h⟩ := h
    exact built_mk hP.kept h (hP.var _ _)
  · -- let
    refine .one (child _ (by simp)) hs fun P hP hle x hx => .one (child _ (by simp)) (fun i n h => hle n (hs i n h)) fun P hP hle' y hy =>
      .ret fun z hz => result_binder hz rfl (by simp [wt, Term.head]) ?_
    simp only [List.mem_cons, List.not_mem_nil, or_false]
    rintro t (rfl | rfl)
    · exact hle' _ hx
    · exact hy
  · -- assertion
    exact .one (f := fun x => .ret (some x)) (child _ (by simp)) hs fun P hP hle x hx => .done fun y hy => by cases hy; exact hx
  · -- size
    refine .one (child _ (by simp)) hs fun P hP hle x hx => .done fun y h => ?_
    simp only [Option.bind_eq_some_iff] at h
    obtain ⟨p, -, h⟩ := h
    exact built_mk hP.kept h (built_one hP.kept rfl hx)
  · -- fold
    rename_i c a n z b
    have hN : N (fold c a n z b) := hk.self (by simp [wt])
    cases hp : o.plan c a n z b with
    | some p =>
      obtain ⟨hout, hin⟩ := ho.plan c a n z b p hN hp
      have hout' : ∀ t ∈ p.outer, Rq N (fold c a n z b) t := fun t ht =>
        have := hout t ht
        ⟨this.1, this.2.1, this.2.2.1.le, fun _ => this.2.2.1⟩
      have hin' : ∀ t ∈ p.inner, Rq N (fold c a n z b) t := fun t ht =>
        have := hin t ht
        ⟨this.1, this.2.1, this.2.2.1.le, fun _ => this.2.2.1⟩
      dsimp only
      cases p with
      | fail => exact .done fun x h => by cases h
      | bulk sf k i elems init =>
        refine .one (hout' elems (by simp [Plan.outer])) hs fun P hP hle x hx =>
          .one (hout' init (by simp [Plan.outer])) (fun i n h => hle n (hs i n h)) fun P hP hle' z hz => .done fun y h => ?_
        exact built_reductionCode hP.kept (hle' _ hx) hz h
      | dot sf sums products =>
        refine .sums (fun q hq => hout' q.2 (List.mem_map.2 ⟨q, hq, rfl⟩)) hP hs fun P hP hle ns hns => ?_
        refine .products (fun q hq e he => hin' e (List.mem_flatMap.2 ⟨q, hq, he⟩)) hP
          (withSums_all hP.kept hns fun i n h => hle n (hs i n h)) fun P hP hle' xss hx => .done fun y h => ?_
        exact built_einsumCode hP.kept hx h
    | none =>
      dsimp only
      refine .one (child _ (by simp)) hs fun P hP hle x hx => .pure fun n' hn' => .one (child _ (by simp)) (fun i n h => hle n (hs i n h))
        fun P hP hle' init hi => .try_ (child _ (by simp)) (fun i n h => hle' n (hle n (hs i n h))) fun pre =>
          .one (child _ (by simp)) (fun i n h => hle' n (hle n (hs i n h))) fun P hP hle'' body hb => .ret fun y h => ?_
      simp only [Option.bind_eq_some_iff] at h
      obtain ⟨z', hz', b', hb', h⟩ := h
      refine result_binder h rfl (by simp [wt, Term.head]) ?_
      simp only [List.mem_cons, List.not_mem_nil, or_false]
      rintro t (rfl | rfl | rfl)
      · exact built_normal hP.kept (hle'' _ (hle' _ hx)) hn'
      · exact built_repeated hP.kept (fun i n h => hle'' n (hle' n (hle n (hs i n h)))) (hle'' _ hi) hz'
      · exact built_aligned hP.kept (noRepeats_all _) hb hb'
  · -- reduction
    rename_i x y z b vs
    refine .one (child _ (by simp)) hs fun P hP hle init hi => .map (fun e he => child e (by simp [he])) hP (fun i n h => hle n (hs i n h))
      fun P hP hle' vecs hv => .try_ (child _ (by simp)) (fun i n h => hle' n (hle n (hs i n h))) fun pre =>
        .one (child _ (by simp)) (fun i n h => hle' n (hle n (hs i n h))) fun P hP hle'' body hb => .ret fun y h => ?_
    split at h
    · cases h
    simp only [Option.bind_eq_some_iff] at h
    obtain ⟨z', hz', vs', hvs', h⟩ := h
    split at h
    · cases h
    have hsz : ∀ i n, s i = some n → P n := fun i n h => hle'' n (hle' n (hle n (hs i n h)))
    refine result_binder h rfl (by simp [wt, Term.head]) ?_
    simp only [List.mem_cons, List.not_mem_nil, or_false]
    rintro t (rfl | rfl | rfl)
    · exact built_repeated hP.kept hsz (hle'' _ (hle' _ hi)) hz'
    · exact hb
    · exact built_tupleMaybe hP.kept (mapOpt_forall hvs' fun a ha b hb => built_repeated hP.kept hsz (hle'' _ (hv a ha)) hb)
  · -- read
    rename_i t i
    have ht := child t (by simp)
    have hi := child i (by simp)
    have hpt : SubPart N (fv (node .get [t, i])) (height (node (.get : Phi.Head F) [t, i])) t :=
      ⟨ht.known, ht.scope, fv_child rfl (by simp), ht.le⟩
    have hpi : SubPart N (fv (node .get [t, i])) (height (node (.get : Phi.Head F) [t, i])) i :=
      ⟨hi.known, hi.scope, fv_child rfl (by simp), hi.le⟩
    have part : ∀ e, SubPart N (fv (node .get [t, i])) (height (node (.get : Phi.Head F) [t, i])) e →
        Rq N (node .get [t, i]) e := fun e he => ⟨he.known, he.scope, he.le, fun hne => absurd rfl hne⟩
    refine .one ht hs fun P hP hle target hta => .pure fun _ _ => ?_
    have hs : ∀ i n, s i = some n → P n := fun i n h => hle n (hs i n h)
    cases hw : window o t i with
    | none => exact .one hi hs fun P hP hle' item hit => .done fun y h => built_itemGet hP.kept (hle' _ hta) hit h
    | some q =>
      obtain ⟨index, c⟩ := q
      dsimp only
      split
      · exact .done fun y h => built_mk hP.kept h hta
      obtain ⟨hix, -, hm⟩ := window_index hw
      simp only [matchIndexClip, Option.bind_eq_some_iff, Option.map_eq_some_iff, Prod.mk.injEq] at hm
      obtain ⟨_, _, c', hm, _, rfl⟩ := hm
      obtain ⟨h1, h2, h3⟩ := hpi.clip hm
      have piece : ∀ {P : YExpr F → Prop} (_ : Kind P) (_ : ∀ i n, s i = some n → P n) (d : YExpr F) (_ : P d)
          (c : Option (Expr F)) {f : YExpr F → Ask F (Axial F)},
          (∀ p ∈ c, SubPart N (fv (node .get [t, i])) (height (node (.get : Phi.Head F) [t, i])) p) →
          (∀ P' : YExpr F → Prop, Kind P' → (∀ c, P c → P' c) → ∀ y, P' y → Good N (node .get [t, i]) P' (f y)) →
          Good N (node .get [t, i]) P ((pieceAsk (Ask.one s v) d c).bind f) := by
        intro P hP hs d hd c f hp hf
        cases c with
        | none => exact hf P hP (fun _ h => h) d hd
        | some e =>
          unfold pieceAsk
          rw [Ask.bind_assoc]
          refine .one (part e (hp e rfl)) hs fun P' hP' hle x hx => Good.pure (r := x.normal) fun y hy => ?_
          exact hf P' hP' hle y (built_normal hP'.kept hx hy)
      unfold windowAsk
      refine .pure fun size hsize => .one (part _ (hpt.dim 0)) hs fun P hP hle1 dx hdx => .pure fun d hd => .pure fun p _ => ?_
      have hd' := built_normal hP.kept hdx hd
      have hs1 : ∀ i n, s i = some n → P n := fun i n h => hle1 n (hs i n h)
      refine piece hP hs1 _ (built_yint hP.kept 0) _ h1 fun P hP hle2 l1 hl1 => ?_
      have hs2 : ∀ i n, s i = some n → P n := fun i n h => hle2 n (hs1 i n h)
      refine piece hP hs2 _ (built_yint hP.kept 0) _ h2 fun P hP hle3 l2 hl2 => ?_
      have hs3 : ∀ i n, s i = some n → P n := fun i n h => hle3 n (hs2 i n h)
      refine piece hP hs3 _ (built_yop hP.kept (hle3 _ (hle2 _ hd')) (built_yint hP.kept 1)) _ h3 fun P hP hle4 l3 hl3 => .done fun y h => ?_
      obtain ⟨e, he, h⟩ := Option.bind_eq_some_iff.1 h
      exact built_mk hP.kept h (built_padSlice hP.kept (hle4 _ (hle3 _ (hle2 _ (hle1 _ hta)))) (hle4 _ (hle3 _ hl1)) (hle4 _ hl2) hl3
        (hle4 _ (hs3 _ _ hsize)) he)
  · -- concatenation
    refine .one (child _ (by simp)) hs fun P hP hle x hx => .one (child _ (by simp)) (fun i n h => hle n (hs i n h)) fun P hP hle' y hy =>
      .done fun z h => ?_
    have hsz : ∀ i n, s i = some n → P n := fun i n h => hle' n (hle n (hs i n h))
    simp only [Option.bind_eq_some_iff] at h
    obtain ⟨a', ha', b', hb', h⟩ := h
    exact built_mk hP.kept h (built_two hP.kept rfl (built_repeated hP.kept hsz (hle' _ hx) ha') (built_repeated hP.kept hsz hy hb'))
  · -- comprehension
    rename_i j n b
    refine .one (child _ (by simp)) hs fun P hP hle x hx => .pure fun n' hn' => ?_
    have hn := built_normal hP.kept hx hn'
    refine .one (child _ (by simp)) (fun i m h => ?_) fun P hP hle' y hy => .done fun z h => built_along hP.kept hy (hle' _ hn) h
    unfold upd at h
    split at h
    · cases h; exact hn
    · exact hle _ (hs _ _ h)
  · -- scalar operation
    refine .map (fun e he => child e he) hP hs fun P hP hle xs hxs => .done fun z h => ?_
    split at h
    · split at h
      · exact built_mk hP.kept h (built_one hP.kept rfl (hxs _ (by simp)))
      · cases h
    · simp only [Option.bind_eq_some_iff] at h
      obtain ⟨es, hes, h⟩ := h
      exact built_mk hP.kept h (built_node hP.kept rfl (mapOpt_forall hes fun a ha b hb => built_aligned hP.kept (noRepeats_all _) (hxs a ha) hb))
  · -- pair
    refine .one (child _ (by simp)) hs fun P hP hle x hx => .one (child _ (by simp)) (fun i n h => hle n (hs i n h)) fun P hP hle' y hy =>
      .done fun z h => ?_
    split at h
    · exact built_cons hP.kept (hle' _ hx) hy h
    · cases h
  · -- first
    rename_i t
    rcases Phi.typeOf t with _ | τ
    · exact .done fun x h => by cases h
    · cases τ with
      | pair τ τ' =>
        exact .pure fun p _ => .one (child _ (by simp)) hs fun P hP hle x hx => .done fun y h => built_sliceTuple hP.kept hx h
      | _ => exact .done fun x h => by cases h
  · -- second
    rename_i t
    rcases Phi.typeOf t with _ | τ
    · exact .done fun x h => by cases h
    · cases τ with
      | pair τ τ' =>
        exact .pure fun p _ => .pure fun q _ => .one (child _ (by simp)) hs fun P hP hle x hx => .done fun y h => built_sliceTuple hP.kept hx h
      | _ => exact .done fun x h => by cases h
  · -- external function
    refine .map (fun e he => child e he) hP hs fun P hP hle xs hxs => .done fun z h => ?_
    simp only [Option.bind_eq_some_iff] at h
    obtain ⟨es, hes, p, -, q, -, h⟩ := h
    exact built_mk hP.kept h (built_node hP.kept rfl (mapOpt_forall hes fun a ha b hb => built_aligned hP.kept (noRepeats_all _) (hxs a ha) hb))
  · exact .done fun x h => by cases h

end

/-! ### The table -/

/-- The table has one entry for a binder, and all binders in its code are in it. -/
structure TableInv (N : Expr F → Prop) (T : Table F) : Prop where
  once : ∀ B x x', wt B.head ≠ 0 → (B, x) ∈ T → (B, x') ∈ T → x = x'
  known : ∀ e x, (e, x) ∈ T → Known N e
  code : ∀ e x, (e, x) ∈ T → FromTable T x.expr

/-- What the compiler does to the table. -/
def Fills (N : Expr F → Prop) (go : Table F × Nat → (Nat → Option (YExpr F)) → (Nat → List Nat) → Expr F →
    Option (Axial F × (Table F × Nat))) : Prop :=
  ∀ T c s v e x r, go (T, c) s v e = some (x, r) → Known N e → Scoped e → TableInv N T → (∀ i n, s i = some n → FromTable T n) →
    TableInv N r.1 ∧ T ⊆ r.1 ∧ FromTable r.1 x.expr ∧ ∀ k, Key r.1 k → Key T k ∨ height k ≤ height e

theorem Good.memo {go : Table F × Nat → (Nat → Option (YExpr F)) → (Nat → List Nat) → Expr F →
    Option (Axial F × (Table F × Nat))} (hgo : Fills N go) (m : Ask F (Axial F)) :
    ∀ T c x r, Good N E (FromTable T) m → m.runMemo go (T, c) = some (x, r) → TableInv N T →
    TableInv N r.1 ∧ T ⊆ r.1 ∧ Result E.head (FromTable r.1) x.expr ∧
      ∀ k, Key r.1 k → Key T k ∨ (height k ≤ height E ∧ (wt E.head ≠ 0 → height k < height E)) := by
  induction m with
  | ret q =>
    intro T c x r hG h hT
    simp only [Ask.runMemo, Option.map_eq_some_iff, Prod.mk.injEq] at h
    obtain ⟨x', rfl, rfl, rfl⟩ := h
    cases hG with
    | ret hr => exact ⟨hT, fun _ h => h, hr _ rfl, fun k hk => .inl hk⟩
  | ask kp s v e k ih =>
    intro T c x r hG h hT
    simp only [Ask.runMemo, Option.bind_eq_some_iff] at h
    obtain ⟨⟨y, T1, c1⟩, hy, h⟩ := h
    cases hG with
    | ask hr hs hk =>
      obtain ⟨h1, h2, h3, h4⟩ := hgo T c s v e y (T1, c1) hy hr.known hr.scope hT hs
      obtain ⟨g1, g2, g3, g4⟩ := ih y T1 c1 x r (hk _ (kept_fromTable T1) (fromTable_var T1) (fun c hc => hc.mono h2) y h3) h h1
      refine ⟨g1, fun q hq => g2 (h2 hq), g3, fun q hq => ?_⟩
      rcases g4 q hq with hq | hq
      · rcases h4 q hq with hq | hq
        · exact .inl hq
        · exact .inr ⟨hq.trans hr.le, fun hw => hq.trans_lt (hr.lt hw)⟩
      · exact .inr hq
    | try_ hr hs hk => exact ih y T c1 x r (hk y) h hT

variable [DecidableEq F] [FloatOps F]

theorem compileMemo_fills (ho : Once o N inputs) (n : Nat) : Fills N (compileMemo (fun _ => o) n) := by
  induction n with
  | zero => intro T c s v e x r h; cases h
  | succ n ih =>
    intro T c s v e x r h hk hsc hT hs
    obtain ⟨hd, ts⟩ := e
    simp only [compileMemo] at h
    cases hg : Table.get T (node hd ts) with
    | some x0 =>
      rw [hg] at h
      cases h
      exact ⟨hT, fun _ h => h, hT.code _ _ (Table.get_mem hg), fun k hk => .inl hk⟩
    | none =>
      rw [hg] at h
      obtain ⟨⟨y, T1, c1⟩, hy, h⟩ := Option.map_eq_some_iff.1 h
      cases h
      have hG : Good N (node hd ts) (FromTable T) (stepAsk o s v hd ts) :=
        stepGood ho hk hsc ⟨kept_fromTable T, fromTable_var T⟩ hs
      obtain ⟨h1, h2, h3, h4⟩ := Good.memo ih _ T (c + 1) y (T1, c1) hG hy hT
      have hno : wt hd ≠ 0 → ¬ Key T1 (node hd ts) := by
        intro hw hkey
        rcases h4 _ hkey with h | h
        · exact Table.get_none hg h
        · exact absurd (h.2 hw) (lt_irrefl _)
      have hsub : T1 ⊆ (node hd ts, y) :: T1 := fun _ h => List.mem_cons_of_mem _ h
      have hcode : FromTable ((node hd ts, y) :: T1) y.expr := by
        rcases h3 with h3 | ⟨g, us, hgu, hcap, hw, hus⟩
        · exact h3.mono hsub
        · intro g' us' ho' hg'
          rw [hgu] at ho'
          cases ho' with
          | refl => exact ⟨node hd ts, y, by simp, hgu, hcap, hw⟩
          | child ht ho' =>
            obtain ⟨B, z, q1, q2⟩ := hus _ ht g' us' ho' hg'
            exact ⟨B, z, hsub q1, q2⟩
      refine ⟨⟨fun B z z' hw hz hz' => ?_, fun e z hz => ?_, fun e z hz => ?_⟩, fun q hq => hsub (h2 hq), hcode, fun k hk => ?_⟩
      · rcases List.mem_cons.1 hz with hz | hz <;> rcases List.mem_cons.1 hz' with hz' | hz'
        · cases hz; cases hz'; rfl
        · cases hz; exact absurd ⟨z', hz'⟩ (hno hw)
        · cases hz'; exact absurd ⟨z, hz⟩ (hno hw)
        · exact h1.once B z z' hw hz hz'
      · rcases List.mem_cons.1 hz with hz | hz
        · cases hz; exact hk
        · exact h1.known e z hz
      · rcases List.mem_cons.1 hz with hz | hz
        · cases hz; exact hcode
        · exact (h1.code e z hz).mono hsub
      · obtain ⟨z, hz⟩ := hk
        rcases List.mem_cons.1 hz with hz | hz
        · cases hz; exact .inr le_rfl
        · rcases h4 k ⟨z, hz⟩ with h | h
          · exact .inl h
          · exact .inr h.1

/-- Two binders in code from a table that bind the same symbol are the same. -/
theorem FromTable.unique (ho : Once o N inputs) {T : Table F} (hT : TableInv N T) {c : YExpr F} (hc : FromTable T c)
    {h : Yarr.Head F} {ts : List (YExpr F)} {k : Yarr.Head F} {us : List (YExpr F)} {s : Sym}
    (h1 : Occurs (node h ts) c) (h2 : Occurs (node k us) c) (hs : s ∈ Yarr.Head.captured h) (hs' : s ∈ Yarr.Head.captured k) :
    node h ts = node k us := by
  obtain ⟨B, x, hm, hx, hB, hw⟩ := hc h ts h1 (Finset.ne_empty_of_mem hs)
  obtain ⟨B', x', hm', hx', hB', hw'⟩ := hc k us h2 (Finset.ne_empty_of_mem hs')
  obtain ⟨g, l⟩ := B
  obtain ⟨g', l'⟩ := B'
  have hN : N (node g l) := (hT.known _ _ hm).self hw
  have hN' : N (node g' l') := (hT.known _ _ hm').self hw'
  have hs : s ∈ Phi.Head.captured g := by rw [hB] at hs; exact hs
  have hs' : s ∈ Phi.Head.captured g' := by rw [hB'] at hs'; exact hs'
  have := ho.unique _ _ hN hN' s (captured_subset_caps _ _ _ hs) (captured_subset_caps _ _ _ hs')
  rw [← this] at hm'
  have := hT.once _ _ _ hw hm hm'
  rw [← hx, ← hx', this]

end Verif.Codegen
