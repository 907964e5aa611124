import Verif.Codegen.Compile
import Verif.Midend.Outline

/-! What the structural operations in compiled code look like. -/

namespace Verif.Codegen
open Verif.Phi Verif.Term Verif.Yarr Verif.Arr Verif.Midend
variable {F : Type}

/-- Axes are inserted in ascending order and removed one at a time, and one axis is padded. -/
def Generated : Yarr.Head F → Prop
  | .squeeze axes => ∃ k, axes = [k]
  | .unsqueeze axes => axes.Pairwise (· < ·)
  | .pad l r => ∃ n p, p < n ∧ l = putMask n p ∧ r = putMask n p
  | _ => True

/-- All operations in the code are of this form. -/
def AllGen (e : YExpr F) : Prop := ∀ u, Occurs u e → Generated u.head

theorem allGen_node {h : Yarr.Head F} {ts : List (YExpr F)} (hh : Generated h) (hts : ∀ t ∈ ts, AllGen t) :
    AllGen (node h ts) := by
  intro u hu
  cases hu with
  | refl => exact hh
  | child hm ho => exact hts _ hm u ho

theorem allGen_leaf {h : Yarr.Head F} (hh : Generated h) : AllGen (node h []) :=
  allGen_node hh (by simp)

theorem allGen_one {h : Yarr.Head F} {a : YExpr F} (hh : Generated h) (ha : AllGen a) : AllGen (node h [a]) :=
  allGen_node hh (by simpa using ha)

theorem allGen_two {h : Yarr.Head F} {a b : YExpr F} (hh : Generated h) (ha : AllGen a) (hb : AllGen b) :
    AllGen (node h [a, b]) := allGen_node hh (by simpa using ⟨ha, hb⟩)

theorem allGen_three {h : Yarr.Head F} {a b c : YExpr F} (hh : Generated h) (ha : AllGen a) (hb : AllGen b)
    (hc : AllGen c) : AllGen (node h [a, b, c]) := allGen_node hh (by simpa using ⟨ha, hb, hc⟩)

theorem mk?_expr {axes : List Nat} {e : YExpr F} {x : Axial F} (h : Axial.mk? axes e = some x) : x.expr = e := by
  unfold Axial.mk? at h
  split at h
  · split at h
    · cases h; rfl
    · cases h
  · cases h

theorem allGen_mk {axes : List Nat} {e : YExpr F} {x : Axial F} (h : Axial.mk? axes e = some x) (he : AllGen e) :
    AllGen x.expr := by rw [mk?_expr h]; exact he

theorem expands_sorted (axes : List Nat) (k : Nat) (into : List Nat) :
    (expands axes k into).Pairwise (fun p q => p.1 < q.1) ∧ ∀ p ∈ expands axes k into, k ≤ p.1 := by
  induction into generalizing k with
  | nil => exact ⟨.nil, by simp [expands]⟩
  | cons x into ih =>
    obtain ⟨h1, h2⟩ := ih (k + 1)
    unfold expands
    split
    · exact ⟨h1, fun p hp => by have := h2 p hp; omega⟩
    · refine ⟨List.pairwise_cons.2 ⟨fun p hp => ?_, h1⟩, fun p hp => ?_⟩
      · have := h2 p hp; simp only; omega
      · rcases List.mem_cons.1 hp with rfl | hp
        · exact Nat.le_refl _
        · have := h2 p hp; omega

theorem dropLeading_sorted (k : Nat) (l : List (Nat × Nat)) (h : l.Pairwise (fun p q => p.1 < q.1))
    (hk : ∀ p ∈ l, k ≤ p.1) : (dropLeading k l).Pairwise (fun p q => p.1 < q.1) := by
  induction l generalizing k with
  | nil => exact .nil
  | cons p l ih =>
    obtain ⟨i, x⟩ := p
    have hc := List.pairwise_cons.1 h
    unfold dropLeading
    split
    · rename_i hik
      refine ih (k + 1) hc.2 (fun q hq => ?_)
      have := hc.1 q hq
      simp only at this
      omega
    · rw [List.pairwise_map]
      refine (List.pairwise_iff_forall_sublist.2 fun {a b} hab => ?_)
      have hlt := List.pairwise_iff_forall_sublist.1 h hab
      have h1 := hk a (hab.subset (by simp))
      have h2 := hk b (hab.subset (by simp))
      simp only
      omega

theorem allGen_repeatAll {repeats : Nat → Option (YExpr F)} (hr : ∀ i n, repeats i = some n → AllGen n)
    (l : List (Nat × Nat)) {e : YExpr F} (he : AllGen e) : AllGen (repeatAll repeats e l) := by
  unfold repeatAll
  induction l generalizing e with
  | nil => exact he
  | cons p l ih =>
    rw [List.foldl_cons]
    apply ih
    split
    · rename_i n hn; exact allGen_two trivial (hr _ _ hn) he
    · exact he

theorem allGen_align {e e' : YExpr F} {axes into : List Nat} {lp : Bool} {repeats : Nat → Option (YExpr F)}
    (hr : ∀ i n, repeats i = some n → AllGen n) (he : AllGen e)
    (h : align e axes into lp repeats = some e') : AllGen e' := by
  unfold align at h
  simp only [Option.bind_eq_some_iff] at h
  obtain ⟨r, -, h⟩ := h
  split at h
  · simp only [Option.some.injEq] at h
    subst h
    refine allGen_repeatAll hr _ (allGen_one ?_ (allGen_one trivial he))
    show List.Pairwise _ _
    rw [List.pairwise_map]
    split
    · exact (expands_sorted _ _ _).1
    · exact dropLeading_sorted _ _ (expands_sorted _ _ _).1 (expands_sorted _ _ _).2
  · cases h

theorem mapOpt_forall {α β : Type} {f : α → Option β} {P : β → Prop} {l : List α} {m : List β}
    (h : mapOpt f l = some m) (hP : ∀ a ∈ l, ∀ b, f a = some b → P b) : ∀ b ∈ m, P b := by
  induction l generalizing m with
  | nil => simp only [mapOpt, Option.some.injEq] at h; subst h; simp
  | cons a l ih =>
    simp only [mapOpt, Option.bind_eq_some_iff, Option.some.injEq] at h
    obtain ⟨b, hb, bs, hbs, rfl⟩ := h
    intro c hc
    rcases List.mem_cons.1 hc with rfl | hc
    · exact hP a (by simp) _ hb
    · exact ih hbs (fun a ha => hP a (by simp [ha])) c hc

theorem noRepeats_gen : ∀ (i : Nat) (n : YExpr F), noRepeats i = some n → AllGen n := by
  intro i n h; cases h

theorem allGen_aligned {x : Axial F} {into : List Nat} {lp : Bool} {repeats : Nat → Option (YExpr F)} {e : YExpr F}
    (hr : ∀ i n, repeats i = some n → AllGen n) (hx : AllGen x.expr)
    (h : x.aligned into lp repeats = some e) : AllGen e := by
  unfold Axial.aligned at h
  simp only [Option.bind_eq_some_iff] at h
  obtain ⟨k, -, h⟩ := h
  split at h
  · exact allGen_align hr hx h
  · simp only [Option.map_eq_some_iff] at h
    obtain ⟨es, hes, rfl⟩ := h
    exact allGen_node trivial (mapOpt_forall hes (fun i _ b hb => allGen_align hr (allGen_one (h := .untuple i k) trivial hx) hb))

theorem allGen_untuple {e e' : YExpr F} {i : Nat} (he : AllGen e) (h : untupleMaybe e i = some e') : AllGen e' := by
  simp only [untupleMaybe, Option.map_eq_some_iff] at h
  obtain ⟨k, -, rfl⟩ := h
  split
  · exact he
  · exact allGen_one trivial he

theorem allGen_tupleMaybe {es : List (YExpr F)} (h : ∀ e ∈ es, AllGen e) : AllGen (tupleMaybe es) := by
  unfold tupleMaybe
  split
  · exact h _ (by simp)
  · exact allGen_node trivial h

theorem allGen_cons {x y z : Axial F} (hx : AllGen x.expr) (hy : AllGen y.expr) (h : x.cons y = some z) :
    AllGen z.expr := by
  unfold Axial.cons at h
  simp only [Option.bind_eq_some_iff] at h
  obtain ⟨n, -, m, -, ex, hex, ey, hey, es, hes, es', hes', h⟩ := h
  refine allGen_mk h (allGen_tupleMaybe (fun e he => ?_))
  rcases List.mem_append.1 he with he | he
  · exact mapOpt_forall hes (fun i _ b hb => allGen_untuple (allGen_aligned noRepeats_gen hx hex) hb) e he
  · exact mapOpt_forall hes' (fun i _ b hb => allGen_untuple (allGen_aligned noRepeats_gen hy hey) hb) e he

theorem allGen_sliceTuple {x z : Axial F} {s t : Nat} (hx : AllGen x.expr) (h : x.sliceTuple s t = some z) :
    AllGen z.expr := by
  unfold Axial.sliceTuple at h
  simp only [Option.bind_eq_some_iff] at h
  obtain ⟨k, -, h⟩ := h
  split at h
  · simp only [Option.bind_eq_some_iff] at h
    obtain ⟨es, hes, h⟩ := h
    exact allGen_mk h (allGen_tupleMaybe (mapOpt_forall hes (fun i _ b hb => allGen_untuple hx hb)))
  · cases h

theorem allGen_normal {x : Axial F} {e : YExpr F} (hx : AllGen x.expr) (h : x.normal = some e) : AllGen e := by
  unfold Axial.normal at h
  split at h
  · cases h; exact hx
  · cases h

theorem allGen_along {x z : Axial F} {i : Nat} {n : YExpr F} (hx : AllGen x.expr) (hn : AllGen n)
    (h : x.along i n = some z) : AllGen z.expr := by
  unfold Axial.along at h
  simp only [Option.bind_eq_some_iff] at h
  obtain ⟨r, -, h⟩ := h
  split at h
  · split at h
    · exact allGen_mk h (allGen_one trivial hx)
    · exact allGen_mk h (allGen_two trivial hn (allGen_one (List.pairwise_singleton _ _) hx))
  · cases h

theorem allGen_yint (n : Int) : AllGen (yint n : YExpr F) := allGen_leaf trivial

theorem allGen_yop {o : ScalarOp} {a b : YExpr F} (ha : AllGen a) (hb : AllGen b) : AllGen (yop o a b) :=
  allGen_two trivial ha hb

theorem allGen_padSlice {t e s l h' n : YExpr F} {axis : Nat} (ht : AllGen t) (hs : AllGen s) (hl : AllGen l)
    (hh : AllGen h') (hn : AllGen n) (h : padSliceGet t axis s l h' n = some e) : AllGen e := by
  unfold padSliceGet at h
  split at h
  · rename_i rank k _
    split at h
    · rename_i hc
      cases h
      have h1 := allGen_yint (F := F) 1
      have h0 := allGen_yint (F := F) 0
      have hstart : AllGen (psStart s l h') := allGen_yop (allGen_yop hs hl) hh
      have hstop : AllGen (psStop s l h' n) :=
        allGen_yop (allGen_yop (allGen_yop (allGen_yop (allGen_yop hs hn) h1) hl) hh) h1
      have hleft : AllGen (psLeft s l n) := allGen_yop (allGen_yop (allGen_yop hl hs) h0) (allGen_yop hn h1)
      have hright : AllGen (psRight s l h' n) := allGen_yop (allGen_yop hn (allGen_yop hstop hstart)) hleft
      exact allGen_three ⟨rank, axis, hc.1, rfl, rfl⟩ (allGen_three trivial ht hstart hstop) hleft hright
    · cases h
  · cases h

theorem allGen_generalGet {t i z : Axial F} (ht : AllGen t.expr) (hi : AllGen i.expr)
    (h : generalGet t i = some z) : AllGen z.expr := by
  unfold generalGet at h
  simp only [Option.bind_eq_some_iff] at h
  obtain ⟨r, -, et, het, ei, hei, h⟩ := h
  refine allGen_mk h (allGen_one ⟨_, rfl⟩ (allGen_two trivial (allGen_aligned noRepeats_gen ht het)
    (allGen_one ?_ (allGen_aligned noRepeats_gen hi hei))))
  show List.Pairwise _ _
  rw [List.pairwise_map]
  exact List.pairwise_lt_range.imp (fun h => by omega)

theorem allGen_getCode {o : Opts F} {go : Expr F → Option (Axial F)} {sizes : Nat → Option (YExpr F)}
    {t i : Expr F} {z : Axial F} (hgo : ∀ e x, go e = some x → AllGen x.expr)
    (hs : ∀ i n, sizes i = some n → AllGen n) (h : getCode o go sizes t i = some z) : AllGen z.expr := by
  unfold getCode at h
  simp only [Option.bind_eq_some_iff] at h
  obtain ⟨x, hx, r, -, h⟩ := h
  have hx' := hgo _ _ hx
  split at h
  · rename_i index c _
    split at h
    · exact allGen_mk h hx'
    · unfold windowGet at h
      simp only [Option.bind_eq_some_iff] at h
      obtain ⟨n, hn, d, ⟨dx, hdx, hd⟩, p, -, s, hs', l, hl, u, hu, e, he, h⟩ := h
      have hd' := allGen_normal (hgo _ _ hdx) hd
      have hpiece : ∀ {d : YExpr F} {c : Option (Expr F)} {e : YExpr F}, AllGen d → piece go d c = some e → AllGen e := by
        intro d c e hd h
        cases c with
        | none => simp only [piece, Option.some.injEq] at h; subst h; exact hd
        | some c =>
          simp only [piece, Option.bind_eq_some_iff] at h
          obtain ⟨y, hy, h⟩ := h
          exact allGen_normal (hgo _ _ hy) h
      exact allGen_mk h (allGen_padSlice hx' (hpiece (allGen_yint 0) hs') (hpiece (allGen_yint 0) hl)
        (hpiece (allGen_yop hd' (allGen_yint 1)) hu) (hs _ _ hn) he)
  · simp only [Option.bind_eq_some_iff] at h
    obtain ⟨y, hy, h⟩ := h
    have hy' := hgo _ _ hy
    unfold itemGet at h
    split at h
    · simp only [Option.bind_eq_some_iff] at h
      obtain ⟨r, -, p, -, h⟩ := h
      exact allGen_mk h (allGen_two trivial hx' hy')
    · exact allGen_generalGet hx' hy' h

theorem withSums_gen {ns : List (Nat × YExpr F)} (hn : ∀ q ∈ ns, AllGen q.2) :
    ∀ {sizes : Nat → Option (YExpr F)}, (∀ i n, sizes i = some n → AllGen n) →
      ∀ i n, withSums sizes ns i = some n → AllGen n := by
  unfold withSums
  induction ns with
  | nil => intro sizes hs; exact hs
  | cons q ns ih =>
    intro sizes hs
    rw [List.foldl_cons]
    refine ih (fun r hr => hn r (by simp [hr])) (fun i n h => ?_)
    unfold upd at h
    split at h
    · cases h; exact hn q (by simp)
    · exact hs i n h

theorem allGen_addCode {es : List (YExpr F)} (hes : ∀ e ∈ es, AllGen e) : ∀ {e : YExpr F}, AllGen e →
    AllGen (addCode e es) := by
  unfold addCode
  induction es with
  | nil => intro e he; exact he
  | cons a es ih =>
    intro e he
    rw [List.foldl_cons]
    exact ih (fun b hb => hes b (by simp [hb])) (allGen_two trivial he (hes a (by simp)))

theorem allGen_productCode {sums : List Nat} {xs : List (Axial F)} {z : Axial F} (hx : ∀ x ∈ xs, AllGen x.expr)
    (h : productCode sums xs = some z) : AllGen z.expr := by
  simp only [productCode, Option.bind_eq_some_iff] at h
  obtain ⟨subs, -, h⟩ := h
  refine allGen_mk h (allGen_node trivial fun t ht => ?_)
  obtain ⟨x, hm, rfl⟩ := List.mem_map.1 ht
  exact hx x hm

theorem allGen_planCode {go : (Nat → Option (YExpr F)) → Expr F → Option (Axial F)} {sizes : Nat → Option (YExpr F)}
    {p : Plan F} {z : Axial F}
    (hgo : ∀ s e x, (∀ i n, s i = some n → AllGen n) → go s e = some x → AllGen x.expr)
    (hs : ∀ i n, sizes i = some n → AllGen n) (h : planCode go sizes p = some z) : AllGen z.expr := by
  cases p with
  | fail => cases h
  | bulk s k i elems init =>
    simp only [planCode, reductionCode, Option.bind_eq_some_iff] at h
    obtain ⟨x, hx, y, hy, p, -, n, hn, h⟩ := h
    exact allGen_mk h (allGen_two trivial (allGen_normal (hgo _ _ _ hs hy) hn)
      (allGen_one trivial (hgo _ _ _ hs hx)))
  | dot s sums products =>
    simp only [planCode, einsumCode, Option.bind_eq_some_iff] at h
    obtain ⟨ns, hns, xss, hxss, ys, hys, es, hes, h⟩ := h
    have hn : ∀ q ∈ ns, AllGen q.2 := mapOpt_forall hns (fun q _ b hb => by
      simp only [Option.map_eq_some_iff, Option.bind_eq_some_iff] at hb
      obtain ⟨m, ⟨w, h4, h5⟩, rfl⟩ := hb
      exact allGen_normal (hgo _ _ _ hs h4) h5)
    have hw := withSums_gen hn hs
    have hx : ∀ xs ∈ xss, ∀ x ∈ xs, AllGen x.expr := mapOpt_forall hxss (fun q _ b hb =>
      mapOpt_forall hb (fun t _ x hx => hgo _ _ _ hw hx))
    have hy : ∀ y ∈ ys, AllGen y.expr := mapOpt_forall hys (fun xs hxs y hy => allGen_productCode (hx xs hxs) hy)
    have he : ∀ e ∈ es, AllGen e :=
      mapOpt_forall hes (fun y hm e he => allGen_aligned noRepeats_gen (hy y hm) he)
    split at h
    · cases h
    · exact allGen_mk h (allGen_addCode (fun e hm => he e (by simp [hm])) (he _ (by simp)))

theorem allGen_repeated {x : Axial F} {strict : Bool} {into : List Nat} {sizes : Nat → Option (YExpr F)} {e : YExpr F}
    (hs : ∀ i n, sizes i = some n → AllGen n) (hx : AllGen x.expr) (h : x.repeated strict into sizes = some e) :
    AllGen e := by
  unfold Axial.repeated at h
  split at h
  · cases h
  · exact allGen_aligned hs hx h

theorem allGen_compile (o : Opts F) (fuel : Nat) (sizes : Nat → Option (YExpr F)) (vaxes : Nat → List Nat)
    (hs : ∀ i n, sizes i = some n → AllGen n) (e : Expr F) (x : Axial F)
    (h : compile o fuel sizes vaxes e = some x) : AllGen x.expr := by
  induction fuel generalizing sizes vaxes e x with
  | zero => cases h
  | succ fuel ih =>
    obtain ⟨hd, ts⟩ := e
    unfold compile at h
    have hgo := fun vaxes e x => ih sizes vaxes hs e x
    have hmap : ∀ {xs : List (Axial F)} {axes : List Nat} {es : List (YExpr F)},
        mapOpt (compile o fuel sizes vaxes) ts = some xs →
        mapOpt (fun x : Axial F => x.aligned axes false) xs = some es → ∀ e ∈ es, AllGen e := by
      intro xs axes es hxs hes
      have h1 := mapOpt_forall (P := fun x : Axial F => AllGen x.expr) hxs (fun a _ b hb => hgo _ a b hb)
      exact mapOpt_forall hes (fun a ha b hb => allGen_aligned noRepeats_gen (h1 a ha) hb)
    unfold compileStep at h
    split at h
    · simp only [Option.bind_eq_some_iff] at h
      obtain ⟨a, -, p, -, h⟩ := h
      exact allGen_mk h (allGen_leaf trivial)
    · simp only [Option.bind_eq_some_iff] at h
      obtain ⟨n, hn, h⟩ := h
      exact allGen_mk h (allGen_one trivial (hs _ _ hn))
    · simp only [Option.bind_eq_some_iff] at h
      obtain ⟨a, -, p, -, h⟩ := h
      exact allGen_mk h (allGen_leaf trivial)
    · simp only [Option.bind_eq_some_iff] at h
      obtain ⟨a, ha, b, hb, h⟩ := h
      exact allGen_mk h (allGen_two trivial (hgo _ _ _ ha) (hgo _ _ _ hb))
    · exact hgo _ _ _ h
    · simp only [Option.bind_eq_some_iff] at h
      obtain ⟨a, ha, p, -, h⟩ := h
      exact allGen_mk h (allGen_one trivial (hgo _ _ _ ha))
    · split at h
      · exact allGen_planCode (fun s e x h1 h2 => ih s vaxes h1 e x h2) hs h
      simp only [loopCode, Option.bind_eq_some_iff] at h
      obtain ⟨n, hn, n', hn', z, hz, pre, -, b, hb, z', hz', b', hb', h⟩ := h
      exact allGen_mk h (allGen_three trivial (allGen_normal (hgo _ _ _ hn) hn')
        (allGen_repeated hs (hgo _ _ _ hz) hz') (allGen_aligned noRepeats_gen (hgo _ _ _ hb) hb'))
    · simp only [reduceCode, Option.bind_eq_some_iff] at h
      obtain ⟨z, hz, vecs, hvecs, pre, -, b, hb, h⟩ := h
      split at h
      · cases h
      simp only [Option.bind_eq_some_iff] at h
      obtain ⟨z', hz', vs', hvs', h⟩ := h
      split at h
      · cases h
      have hv := mapOpt_forall (P := fun x : Axial F => AllGen x.expr) hvecs (fun a _ b hb => hgo _ a b hb)
      exact allGen_mk h (allGen_three trivial (allGen_repeated hs (hgo _ _ _ hz) hz') (hgo _ _ _ hb)
        (allGen_tupleMaybe (mapOpt_forall hvs' fun a ha b hb => allGen_repeated hs (hv a ha) hb)))
    · exact allGen_getCode (hgo vaxes) hs h
    · simp only [Option.bind_eq_some_iff] at h
      obtain ⟨a, ha, b, hb, a', ha', b', hb', h⟩ := h
      exact allGen_mk h (allGen_two trivial (allGen_repeated hs (hgo _ _ _ ha) ha')
        (allGen_repeated hs (hgo _ _ _ hb) hb'))
    · rename_i i n b
      simp only [Option.bind_eq_some_iff] at h
      obtain ⟨a, ha, n', hn', y, hy, h⟩ := h
      have hn := allGen_normal (hgo _ _ _ ha) hn'
      refine allGen_along (ih _ _ (fun j m hm => ?_) _ _ hy) hn h
      unfold upd at hm
      split at hm
      · cases hm; exact hn
      · exact hs _ _ hm
    · simp only [Option.bind_eq_some_iff] at h
      obtain ⟨xs, hxs, h⟩ := h
      split at h
      · split at h
        · rename_i x'
          have := mapOpt_forall (P := fun x : Axial F => AllGen x.expr) hxs (fun a _ b hb => hgo _ a b hb) x' (by simp)
          exact allGen_mk h (allGen_one trivial this)
        · cases h
      · simp only [Option.bind_eq_some_iff] at h
        obtain ⟨es, hes, h⟩ := h
        exact allGen_mk h (allGen_node trivial (hmap hxs hes))
    · simp only [Option.bind_eq_some_iff] at h
      obtain ⟨a, ha, b, hb, h⟩ := h
      split at h
      · exact allGen_cons (hgo _ _ _ ha) (hgo _ _ _ hb) h
      · cases h
    · split at h
      · simp only [Option.bind_eq_some_iff] at h
        obtain ⟨p, -, a, ha, h⟩ := h
        exact allGen_sliceTuple (hgo _ _ _ ha) h
      · cases h
    · split at h
      · simp only [Option.bind_eq_some_iff] at h
        obtain ⟨p, -, q, -, a, ha, h⟩ := h
        exact allGen_sliceTuple (hgo _ _ _ ha) h
      · cases h
    · simp only [Option.bind_eq_some_iff] at h
      obtain ⟨xs, hxs, es, hes, p, -, q, -, h⟩ := h
      exact allGen_mk h (allGen_node trivial (hmap hxs hes))
    · cases h

theorem allGen_compileProgram {o : Opts F} {fuel : Nat} {p : Expr F} {e : YExpr F}
    (h : compileProgram o fuel p = some e) : AllGen e := by
  simp only [compileProgram, Option.bind_eq_some_iff] at h
  obtain ⟨x, hx, h⟩ := h
  exact allGen_normal (allGen_compile o fuel _ _ (fun i n hn => by cases hn) _ _ hx) h

end Verif.Codegen
