import Verif.Codegen.Generated
import Verif.Codegen.MemoAgree

/-! What is kept by the functions that build code. -/

set_option linter.unusedSectionVars false

namespace Verif.Codegen
open Verif.Phi Verif.Term Verif.Yarr Verif.Arr Verif.Midend
variable {F : Type} {P : YExpr F → Prop}

/-- Neither a variable nor a binder. -/
def Silent : Yarr.Head F → Bool
  | .var _ _ | .letv _ | .fold _ _ | .reduce _ _ _ => false
  | _ => true

/-- Kept by all operations other than variables and binders. -/
def Kept (P : YExpr F → Prop) : Prop := ∀ h ts, Silent h = true → (∀ t ∈ ts, P t) → P (node h ts)

theorem built_node (hP : Kept P) {h : Yarr.Head F} {ts : List (YExpr F)} (hh : Silent h = true) (hts : ∀ t ∈ ts, P t) :
    P (node h ts) := by
  exact hP h ts hh hts

theorem built_leaf (hP : Kept P) {h : Yarr.Head F} (hh : Silent h = true) : P (node h []) :=
  built_node hP hh (by simp)

theorem built_one (hP : Kept P) {h : Yarr.Head F} {a : YExpr F} (hh : Silent h = true) (ha : P a) : P (node h [a]) :=
  built_node hP hh (by simpa using ha)

theorem built_two (hP : Kept P) {h : Yarr.Head F} {a b : YExpr F} (hh : Silent h = true) (ha : P a) (hb : P b) :
    P (node h [a, b]) := built_node hP hh (by simpa using ⟨ha, hb⟩)

theorem built_three (hP : Kept P) {h : Yarr.Head F} {a b c : YExpr F} (hh : Silent h = true) (ha : P a) (hb : P b)
    (hc : P c) : P (node h [a, b, c]) := built_node hP hh (by simpa using ⟨ha, hb, hc⟩)

theorem built_mk (_hP : Kept P) {axes : List Nat} {e : YExpr F} {x : Axial F} (h : Axial.mk? axes e = some x) (he : P e) :
    P x.expr := by rw [mk?_expr h]; exact he

theorem built_repeatAll (hP : Kept P) {repeats : Nat → Option (YExpr F)} (hr : ∀ i n, repeats i = some n → P n)
    (l : List (Nat × Nat)) {e : YExpr F} (he : P e) : P (repeatAll repeats e l) := by
  unfold repeatAll
  induction l generalizing e with
  | nil => exact he
  | cons p l ih =>
    rw [List.foldl_cons]
    apply ih
    split
    · rename_i n hn; exact built_two hP rfl (hr _ _ hn) he
    · exact he

theorem built_align (hP : Kept P) {e e' : YExpr F} {axes into : List Nat} {lp : Bool} {repeats : Nat → Option (YExpr F)}
    (hr : ∀ i n, repeats i = some n → P n) (he : P e)
    (h : align e axes into lp repeats = some e') : P e' := by
  unfold align at h
  simp only [Option.bind_eq_some_iff] at h
  obtain ⟨r, -, h⟩ := h
  split at h
  · simp only [Option.some.injEq] at h
    subst h
    refine built_repeatAll hP hr _ (built_one hP rfl (built_one hP rfl he))
  · cases h

theorem noRepeats_all (P : YExpr F → Prop) : ∀ (i : Nat) (n : YExpr F), noRepeats i = some n → P n := by
  intro i n h; cases h

theorem built_aligned (hP : Kept P) {x : Axial F} {into : List Nat} {lp : Bool} {repeats : Nat → Option (YExpr F)} {e : YExpr F}
    (hr : ∀ i n, repeats i = some n → P n) (hx : P x.expr)
    (h : x.aligned into lp repeats = some e) : P e := by
  unfold Axial.aligned at h
  simp only [Option.bind_eq_some_iff] at h
  obtain ⟨k, -, h⟩ := h
  split at h
  · exact built_align hP hr hx h
  · simp only [Option.map_eq_some_iff] at h
    obtain ⟨es, hes, rfl⟩ := h
    exact built_node hP rfl (mapOpt_forall hes (fun i _ b hb => built_align hP hr (built_one hP (h := .untuple i k) rfl hx) hb))

theorem built_untuple (hP : Kept P) {e e' : YExpr F} {i : Nat} (he : P e) (h : untupleMaybe e i = some e') : P e' := by
  simp only [untupleMaybe, Option.map_eq_some_iff] at h
  obtain ⟨k, -, rfl⟩ := h
  split
  · exact he
  · exact built_one hP rfl he

theorem built_tupleMaybe (hP : Kept P) {es : List (YExpr F)} (h : ∀ e ∈ es, P e) : P (tupleMaybe es) := by
  unfold tupleMaybe
  split
  · exact h _ (by simp)
  · exact built_node hP rfl h

theorem built_cons (hP : Kept P) {x y z : Axial F} (hx : P x.expr) (hy : P y.expr) (h : x.cons y = some z) :
    P z.expr := by
  unfold Axial.cons at h
  simp only [Option.bind_eq_some_iff] at h
  obtain ⟨n, -, m, -, ex, hex, ey, hey, es, hes, es', hes', h⟩ := h
  refine built_mk hP h (built_tupleMaybe hP (fun e he => ?_))
  rcases List.mem_append.1 he with he | he
  · exact mapOpt_forall hes (fun i _ b hb => built_untuple hP (built_aligned hP (noRepeats_all P) hx hex) hb) e he
  · exact mapOpt_forall hes' (fun i _ b hb => built_untuple hP (built_aligned hP (noRepeats_all P) hy hey) hb) e he

theorem built_sliceTuple (hP : Kept P) {x z : Axial F} {s t : Nat} (hx : P x.expr) (h : x.sliceTuple s t = some z) :
    P z.expr := by
  unfold Axial.sliceTuple at h
  simp only [Option.bind_eq_some_iff] at h
  obtain ⟨k, -, h⟩ := h
  split at h
  · simp only [Option.bind_eq_some_iff] at h
    obtain ⟨es, hes, h⟩ := h
    exact built_mk hP h (built_tupleMaybe hP (mapOpt_forall hes (fun i _ b hb => built_untuple hP hx hb)))
  · cases h

theorem built_normal (_hP : Kept P) {x : Axial F} {e : YExpr F} (hx : P x.expr) (h : x.normal = some e) : P e := by
  unfold Axial.normal at h
  split at h
  · cases h; exact hx
  · cases h

theorem built_along (hP : Kept P) {x z : Axial F} {i : Nat} {n : YExpr F} (hx : P x.expr) (hn : P n)
    (h : x.along i n = some z) : P z.expr := by
  unfold Axial.along at h
  simp only [Option.bind_eq_some_iff] at h
  obtain ⟨r, -, h⟩ := h
  split at h
  · split at h
    · exact built_mk hP h (built_one hP rfl hx)
    · exact built_mk hP h (built_two hP rfl hn (built_one hP rfl hx))
  · cases h

theorem built_yint (hP : Kept P) (n : Int) : P (yint n) := built_leaf hP rfl

theorem built_yop (hP : Kept P) {o : ScalarOp} {a b : YExpr F} (ha : P a) (hb : P b) : P (yop o a b) :=
  built_two hP rfl ha hb

theorem built_padSlice (hP : Kept P) {t e s l h' n : YExpr F} {axis : Nat} (ht : P t) (hs : P s) (hl : P l)
    (hh : P h') (hn : P n) (h : padSliceGet t axis s l h' n = some e) : P e := by
  unfold padSliceGet at h
  split at h
  · rename_i rank k _
    split at h
    · rename_i hc
      cases h
      have h1 := built_yint hP (F := F) 1
      have h0 := built_yint hP (F := F) 0
      have hstart : P (psStart s l h') := built_yop hP (built_yop hP hs hl) hh
      have hstop : P (psStop s l h' n) :=
        built_yop hP (built_yop hP (built_yop hP (built_yop hP (built_yop hP hs hn) h1) hl) hh) h1
      have hleft : P (psLeft s l n) := built_yop hP (built_yop hP (built_yop hP hl hs) h0) (built_yop hP hn h1)
      have hright : P (psRight s l h' n) := built_yop hP (built_yop hP hn (built_yop hP hstop hstart)) hleft
      exact built_three hP rfl (built_three hP rfl ht hstart hstop) hleft hright
    · cases h
  · cases h

theorem built_generalGet (hP : Kept P) {t i z : Axial F} (ht : P t.expr) (hi : P i.expr)
    (h : generalGet t i = some z) : P z.expr := by
  unfold generalGet at h
  simp only [Option.bind_eq_some_iff] at h
  obtain ⟨r, -, et, het, ei, hei, h⟩ := h
  refine built_mk hP h (built_one hP rfl (built_two hP rfl (built_aligned hP (noRepeats_all P) ht het)
    (built_one hP rfl (built_aligned hP (noRepeats_all P) hi hei))))

theorem built_piece (hP : Kept P) {go : Expr F → Option (Axial F)} {d : YExpr F} {c : Option (Expr F)} {e : YExpr F}
    (hd : P d) (hgo : ∀ p ∈ c, ∀ x, go p = some x → P x.expr) (h : piece go d c = some e) : P e := by
  cases c with
  | none => simp only [piece, Option.some.injEq] at h; subst h; exact hd
  | some c =>
    simp only [piece, Option.bind_eq_some_iff] at h
    obtain ⟨y, hy, h⟩ := h
    exact built_normal hP (hgo c rfl _ hy) h

theorem built_itemGet (hP : Kept P) {takes : Bool} {t i z : Axial F} (ht : P t.expr) (hi : P i.expr)
    (h : itemGet takes t i = some z) : P z.expr := by
  unfold itemGet at h
  split at h
  · simp only [Option.bind_eq_some_iff] at h
    obtain ⟨r, -, p, -, h⟩ := h
    exact built_mk hP h (built_two hP rfl ht hi)
  · exact built_generalGet hP ht hi h

theorem built_getCode (hP : Kept P) {o : Opts F} {go : Expr F → Option (Axial F)} {sizes : Nat → Option (YExpr F)}
    {t i : Expr F} {z : Axial F} (ht : ∀ x, go t = some x → P x.expr) (hi : ∀ x, go i = some x → P x.expr)
    (hd : ∀ x, go (dimExpr t 0) = some x → P x.expr)
    (hc : ∀ index c, window o t i = some (index, c) → ∀ e, e ∈ c.1 ∨ e ∈ c.2.1 ∨ e ∈ c.2.2 → ∀ x, go e = some x → P x.expr)
    (hs : ∀ i n, sizes i = some n → P n) (h : getCode o go sizes t i = some z) : P z.expr := by
  unfold getCode at h
  simp only [Option.bind_eq_some_iff] at h
  obtain ⟨x, hx, r, -, h⟩ := h
  have hx' := ht _ hx
  split at h
  · rename_i index c hw
    have hc := hc index c hw
    split at h
    · exact built_mk hP h hx'
    · unfold windowGet at h
      simp only [Option.bind_eq_some_iff] at h
      obtain ⟨n, hn, d, ⟨dx, hdx, hd'⟩, p, -, s, hs', l, hl, u, hu, e, he, h⟩ := h
      have hd' := built_normal hP (hd _ hdx) hd'
      exact built_mk hP h (built_padSlice hP hx'
        (built_piece hP (built_yint hP 0) (fun e he => hc e (.inl he)) hs')
        (built_piece hP (built_yint hP 0) (fun e he => hc e (.inr (.inl he))) hl)
        (built_piece hP (built_yop hP hd' (built_yint hP 1)) (fun e he => hc e (.inr (.inr he))) hu) (hs _ _ hn) he)
  · simp only [Option.bind_eq_some_iff] at h
    obtain ⟨y, hy, h⟩ := h
    exact built_itemGet hP hx' (hi _ hy) h

theorem withSums_all (_hP : Kept P) {ns : List (Nat × YExpr F)} (hn : ∀ q ∈ ns, P q.2) :
    ∀ {sizes : Nat → Option (YExpr F)}, (∀ i n, sizes i = some n → P n) →
      ∀ i n, withSums sizes ns i = some n → P n := by
  unfold withSums
  induction ns with
  | nil => intro sizes hs; exact hs
  | cons q ns ih =>
    intro sizes hs
    rw [List.foldl_cons]
    refine ih (fun r hr => hn r (by simp [hr])) (fun i n h => ?_)
    unfold upd at h
    split at h
    · cases h; exact hn q (by simp)
    · exact hs i n h

theorem built_addCode (hP : Kept P) {es : List (YExpr F)} (hes : ∀ e ∈ es, P e) : ∀ {e : YExpr F}, P e →
    P (addCode e es) := by
  unfold addCode
  induction es with
  | nil => intro e he; exact he
  | cons a es ih =>
    intro e he
    rw [List.foldl_cons]
    exact ih (fun b hb => hes b (by simp [hb])) (built_two hP rfl he (hes a (by simp)))

theorem built_productCode (hP : Kept P) {sums : List Nat} {xs : List (Axial F)} {z : Axial F} (hx : ∀ x ∈ xs, P x.expr)
    (h : productCode sums xs = some z) : P z.expr := by
  simp only [productCode, Option.bind_eq_some_iff] at h
  obtain ⟨subs, -, h⟩ := h
  refine built_mk hP h (built_node hP rfl fun t ht => ?_)
  obtain ⟨x, hm, rfl⟩ := List.mem_map.1 ht
  exact hx x hm

theorem built_reductionCode (hP : Kept P) {k : RedKind} {x y z : Axial F} (hx : P x.expr) (hy : P y.expr)
    (h : reductionCode k x y = some z) : P z.expr := by
  simp only [reductionCode, Option.bind_eq_some_iff] at h
  obtain ⟨p, -, n, hn, h⟩ := h
  exact built_mk hP h (built_two hP rfl (built_normal hP hy hn) (built_one hP rfl hx))

theorem built_einsumCode (hP : Kept P) {sums : List Nat} {xss : List (List (Axial F))} {z : Axial F}
    (hx : ∀ xs ∈ xss, ∀ x ∈ xs, P x.expr) (h : einsumCode sums xss = some z) : P z.expr := by
  simp only [einsumCode, Option.bind_eq_some_iff] at h
  obtain ⟨ys, hys, es, hes, h⟩ := h
  have hy : ∀ y ∈ ys, P y.expr := mapOpt_forall hys (fun xs hxs y hy => built_productCode hP (hx xs hxs) hy)
  have he : ∀ e ∈ es, P e :=
    mapOpt_forall hes (fun y hm e he => built_aligned hP (noRepeats_all P) (hy y hm) he)
  split at h
  · cases h
  · exact built_mk hP h (built_addCode hP (fun e hm => he e (by simp [hm])) (he _ (by simp)))

theorem built_planCode (hP : Kept P) {go : (Nat → Option (YExpr F)) → Expr F → Option (Axial F)} {sizes : Nat → Option (YExpr F)}
    {p : Plan F} {z : Axial F} (hout : ∀ e ∈ p.outer, ∀ x, go sizes e = some x → P x.expr)
    (hin : ∀ s, (∀ i n, s i = some n → P n) → ∀ e ∈ p.inner, ∀ x, go s e = some x → P x.expr)
    (hs : ∀ i n, sizes i = some n → P n) (h : planCode go sizes p = some z) : P z.expr := by
  cases p with
  | fail => cases h
  | bulk s k i elems init =>
    simp only [planCode, Option.bind_eq_some_iff] at h
    obtain ⟨x, hx, y, hy, h⟩ := h
    exact built_reductionCode hP (hout _ (by simp [Plan.outer]) _ hx) (hout _ (by simp [Plan.outer]) _ hy) h
  | dot s sums products =>
    simp only [planCode, Option.bind_eq_some_iff] at h
    obtain ⟨ns, hns, xss, hxss, h⟩ := h
    have hn : ∀ q ∈ ns, P q.2 := mapOpt_forall hns (fun q hq b hb => by
      simp only [Option.map_eq_some_iff, Option.bind_eq_some_iff] at hb
      obtain ⟨m, ⟨w, h4, h5⟩, rfl⟩ := hb
      exact built_normal hP (hout _ (List.mem_map.2 ⟨q, hq, rfl⟩) _ h4) h5)
    have hw := withSums_all hP hn hs
    exact built_einsumCode hP (mapOpt_forall hxss (fun q hq b hb =>
      mapOpt_forall hb (fun t ht x hx => hin _ hw t (List.mem_flatMap.2 ⟨q, hq, ht⟩) _ hx))) h

theorem built_repeated (hP : Kept P) {x : Axial F} {strict : Bool} {into : List Nat} {sizes : Nat → Option (YExpr F)} {e : YExpr F}
    (hs : ∀ i n, sizes i = some n → P n) (hx : P x.expr) (h : x.repeated strict into sizes = some e) :
    P e := by
  unfold Axial.repeated at h
  split at h
  · cases h
  · exact built_aligned hP hs hx h


end Verif.Codegen
