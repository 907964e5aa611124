import Verif.Backend.Prims
import Verif.Backend.InplacePass
import Verif.Codegen.PadSlice
import Verif.Array.Shape

/-! Comparison of the structural primitives of the array backends. -/

set_option linter.unusedSectionVars false

namespace Verif.Backend
open Verif.Phi Verif.Term Verif.Yarr Verif.Arr Verif.Midend
variable {F : Type}

/-! ### Axis insertion -/

theorem spread_cons {β : Type} (k : Nat) (ks : List Nat) (v : β) (h : ∀ x ∈ ks, k < x) (n j : Nat) (l : List β)
    (hj : j ≤ k) (hl : k - j ≤ l.length) :
    NArr.spread (k :: ks) v j n l = NArr.spread ks v j n (l.insertIdx (k - j) v) := by
  induction n generalizing j l with
  | zero => rfl
  | succ n ih =>
    rcases Nat.lt_or_ge j k with hjk | hjk
    · have hn : j ∉ ks := fun hm => by have := h j hm; omega
      have hne : j ≠ k := by omega
      cases l with
      | nil => simp at hl; omega
      | cons x l =>
        have e : k - j = (k - (j + 1)) + 1 := by omega
        rw [e, List.insertIdx_succ_cons]
        simp only [NArr.spread, List.mem_cons, hne, hn, or_self, if_false]
        rw [ih (j + 1) l (by omega) (by simp at hl; omega)]
    · have : j = k := by omega
      subst this
      have hn : j ∉ ks := fun hm => by have := h j hm; omega
      rw [Nat.sub_self, List.insertIdx_zero]
      simp only [NArr.spread, List.mem_cons, true_or, if_true, hn, if_false]
      congr 1
      clear ih hl hj
      have key : ∀ (n i : Nat) (l : List β), j < i →
          NArr.spread (j :: ks) v i n l = NArr.spread ks v i n l := by
        intro n
        induction n with
        | zero => intros; rfl
        | succ n ih =>
          intro i l hi
          have : i ≠ j := by omega
          cases l <;> simp only [NArr.spread, List.mem_cons, this, false_or, ih (i + 1) _ (by omega)]
      exact key n (j + 1) l (by omega)

theorem dropAt_cons {β : Type} (k : Nat) (ks : List Nat) (h : ∀ x ∈ ks, k < x) (j : Nat) (l : List β)
    (hj : j ≤ k) : NArr.dropAt (k :: ks) j l = (NArr.dropAt ks j l).eraseIdx (k - j) := by
  induction l generalizing j with
  | nil => simp [NArr.dropAt]
  | cons x l ih =>
    rcases Nat.lt_or_ge j k with hjk | hjk
    · have hn : j ∉ ks := fun hm => by have := h j hm; omega
      have hne : j ≠ k := by omega
      have e : k - j = (k - (j + 1)) + 1 := by omega
      simp only [NArr.dropAt, List.mem_cons, hne, hn, or_self, if_false]
      rw [e, List.eraseIdx_cons_succ, ih (j + 1) (by omega)]
    · have : j = k := by omega
      subst this
      have hn : j ∉ ks := fun hm => by have := h j hm; omega
      simp only [NArr.dropAt, List.mem_cons, true_or, if_true, hn, if_false, Nat.sub_self, List.eraseIdx_cons_zero]
      have key : ∀ (l : List β) (i : Nat), j < i → NArr.dropAt (j :: ks) i l = NArr.dropAt ks i l := by
        intro l
        induction l with
        | nil => intros; rfl
        | cons y l ih =>
          intro i hi
          have : i ≠ j := by omega
          simp only [NArr.dropAt, List.mem_cons, this, false_or, ih (i + 1) (by omega)]
      exact key l (j + 1) (by omega)

theorem spread_nil {β : Type} (v : β) (j : Nat) (l : List β) : NArr.spread [] v j l.length l = l := by
  induction l generalizing j with
  | nil => rfl
  | cons x l ih => simp [NArr.spread, ih]

theorem dropAt_nil {β : Type} (j : Nat) (l : List β) : NArr.dropAt [] j l = l := by
  induction l generalizing j with
  | nil => rfl
  | cons x l ih => simp [NArr.dropAt, ih]

theorem inRange_insertIdx {s ix : List Nat} {d i : Nat} (k : Nat) (h : InRange s ix) (hi : i < d) :
    InRange (s.insertIdx k d) (ix.insertIdx k i) := by
  induction h generalizing k with
  | nil =>
    cases k with
    | zero => simpa [inRange_cons] using hi
    | succ k => simp
  | cons h0 hr ih =>
    cases k with
    | zero => simp only [List.insertIdx_zero]; exact .cons hi (.cons h0 hr)
    | succ k => simp only [List.insertIdx_succ_cons]; exact .cons h0 (ih k)

theorem inRange_eraseIdx {s ix : List Nat} (k : Nat) (h : InRange s ix) :
    InRange (s.eraseIdx k) (ix.eraseIdx k) := by
  induction h generalizing k with
  | nil => simp
  | cons h0 hr ih =>
    cases k with
    | zero => rw [List.eraseIdx_cons_zero, List.eraseIdx_cons_zero]; exact hr
    | succ k => simp only [List.eraseIdx_cons_succ]; exact .cons h0 (ih k)

theorem length_pairwise_lt {ks : List Nat} (hp : ks.Pairwise (· < ·)) {k m : Nat} (h : ∀ x ∈ ks, k < x)
    (hm : ∀ x ∈ ks, x < m) (hkm : k < m) : k + ks.length < m := by
  induction ks generalizing k with
  | nil => simpa using hkm
  | cons x ks ih =>
    have hx := List.pairwise_cons.1 hp
    have := ih hx.2 hx.1 (fun y hy => hm y (by simp [hy])) (hm x (by simp))
    have := h x (by simp)
    simp only [List.length_cons]
    omega

theorem reindex_id {a : A F} : a.reindex a.shape (fun ix => ix) = some a := by
  obtain ⟨b, hb, hs, hg⟩ := NArr.reindex_spec (a := a) (s := a.shape) (g := fun ix => ix) (fun _ h => h)
  rw [hb, NArr.ext_get? hs (fun ix hix => hg ix (hs ▸ hix))]

/-- Inserting axes in ascending order, one after another, is inserting them at these places of the result. -/
theorem torchUnsqueeze_eq (axes : List Nat) (hp : axes.Pairwise (· < ·)) (a : A F) :
    torchUnsqueeze axes a = a.unsqueeze axes := by
  induction axes generalizing a with
  | nil =>
    unfold torchUnsqueeze NArr.unsqueeze
    have e1 : NArr.spread [] 1 0 (([] : List Nat).length + a.rank) a.shape = a.shape := by
      rw [List.length_nil, Nat.zero_add]; exact spread_nil 1 0 a.shape
    have e2 : (fun ix : List Nat => NArr.dropAt [] 0 ix) = fun ix => ix := funext (dropAt_nil 0)
    rw [e1, e2, reindex_id]
    simp [loopOpt]
  | cons k ks ih =>
    have hk := List.pairwise_cons.1 hp
    have e0 : torchUnsqueeze (k :: ks) a = (torchUnsqueeze1 k a).bind (torchUnsqueeze ks) := rfl
    rw [e0]
    have hf : torchUnsqueeze ks = NArr.unsqueeze (α := Scal F) ks := funext (ih hk.2)
    rw [hf]
    have hnd : (k :: ks).Nodup := hp.imp (fun h => Nat.ne_of_lt h)
    have hnd' : ks.Nodup := hk.2.imp (fun h => Nat.ne_of_lt h)
    unfold torchUnsqueeze1
    split
    · rename_i hka
      obtain ⟨b, hb, hbs, hbg⟩ := NArr.reindex_spec (a := a) (s := a.shape.insertIdx k 1)
        (g := fun ix => ix.eraseIdx k) (fun ix hix => by
          have := inRange_eraseIdx k hix
          rwa [List.eraseIdx_insertIdx_self] at this)
      rw [hb, Option.bind_some]
      have hbr : b.rank = a.rank + 1 := by
        unfold NArr.rank; rw [hbs, List.length_insertIdx]; simp [show k ≤ a.shape.length from hka]
      unfold NArr.unsqueeze
      by_cases hc : ∀ x ∈ k :: ks, x < (k :: ks).length + a.rank
      · have hc' : ∀ x ∈ ks, x < ks.length + b.rank := by
          intro x hx; have := hc x (by simp [hx]); rw [hbr]; simp at this; omega
        rw [if_pos ⟨hnd', hc'⟩, if_pos ⟨hnd, hc⟩]
        have es : NArr.spread (k :: ks) 1 0 ((k :: ks).length + a.rank) a.shape =
            NArr.spread ks 1 0 (ks.length + b.rank) b.shape := by
          rw [spread_cons k ks 1 hk.1 _ 0 _ (by omega) (by rw [Nat.sub_zero]; exact hka), hbs, hbr]
          simp only [List.length_cons, Nat.sub_zero]
          congr 1
          omega
        have ed : ∀ ix : List Nat, NArr.dropAt (k :: ks) 0 ix = (NArr.dropAt ks 0 ix).eraseIdx k := by
          intro ix; rw [dropAt_cons k ks hk.1 0 ix (by omega), Nat.sub_zero]
        rw [es]
        have hcnt : NArr.cnt ks 0 (ks.length + b.rank) = ks.length := by
          exact NArr.cnt_eq_length hnd' hc'
        have hr : ∀ ix, InRange (NArr.spread ks 1 0 (ks.length + b.rank) b.shape) ix →
            InRange b.shape (NArr.dropAt ks 0 ix) := by
          intro ix hix
          have := NArr.inRange_dropAt ks 0 hix
          rwa [NArr.dropAt_spread ks 1 0 (ks.length + b.rank) b.shape (by rw [hcnt]; exact Nat.add_comm _ _)] at this
        obtain ⟨c, hc1, hc2, hc3⟩ := NArr.reindex_spec hr
        rw [hc1]
        have hr' : ∀ ix, InRange (NArr.spread ks 1 0 (ks.length + b.rank) b.shape) ix →
            InRange a.shape (NArr.dropAt (k :: ks) 0 ix) := by
          intro ix hix
          rw [ed]
          have h2 := inRange_eraseIdx k (hr ix hix)
          rwa [hbs, List.eraseIdx_insertIdx_self] at h2
        obtain ⟨d, hd1, hd2, hd3⟩ := NArr.reindex_spec hr'
        rw [hd1]
        congr 1
        refine NArr.ext_get? (hc2.trans hd2.symm) (fun ix hix => ?_)
        rw [hc2] at hix
        rw [hc3 ix hix, hd3 ix hix, ed, hbg _ (hbs ▸ hr ix hix)]
      · rw [if_neg (fun h => hc ?_), if_neg (fun h => hc h.2)]
        intro x hx
        have h2 := h.2
        rw [hbr] at h2
        simp only [List.length_cons]
        rcases List.mem_cons.1 hx with rfl | hx
        · omega
        · have := h2 x hx; omega
    · rename_i hka
      rw [Option.bind_none]
      unfold NArr.unsqueeze
      rw [if_neg]
      rintro ⟨-, h⟩
      have := length_pairwise_lt hk.2 hk.1 (fun x hx => h x (by simp [hx])) (h k (by simp))
      simp only [List.length_cons] at this
      omega

/-! ### Axis removal -/

/-- Where NumPy removes one axis, PyTorch gives the same array. -/
theorem torchSqueeze_le (k : Nat) (a : A F) : Le (a.squeeze [k]) (torchSqueeze [k] a) := by
  intro b hb
  unfold NArr.squeeze at hb
  split at hb
  · rename_i hc
    have hk : a.shape[k]? = some 1 := hc.2 k (by simp)
    have hlt : k < a.shape.length := (List.getElem?_eq_some_iff.1 hk).1
    show (torchSqueeze1 k a).bind some = some b
    unfold torchSqueeze1
    rw [hk]
    simp only [if_true]
    have e1 : NArr.dropAt [k] 0 a.shape = a.shape.eraseIdx k := by
      rw [dropAt_cons k [] (by simp) 0 _ (by omega), dropAt_nil, Nat.sub_zero]
    rw [e1] at hb
    rw [Option.bind_fun_some]
    have hbs := NArr.shape_of_reindex hb
    have hr : ∀ ix, InRange (a.shape.eraseIdx k) ix →
        NArr.spread [k] 0 0 a.rank ix = ix.insertIdx k 0 := by
      intro ix hix
      have hl := hix.length
      rw [List.length_eraseIdx_of_lt hlt] at hl
      rw [spread_cons k [] 0 (by simp) _ 0 _ (by omega) (by omega), Nat.sub_zero]
      have : a.rank = (ix.insertIdx k 0).length := by
        rw [List.length_insertIdx]; unfold NArr.rank; simp only [show k ≤ ix.length by omega, if_true]; omega
      rw [this]
      exact spread_nil _ _ _
    unfold NArr.reindex at hb ⊢
    rw [NArr.ofFn?_eq_some] at hb ⊢
    refine ⟨hb.1, fun ix hix => ?_⟩
    have := hb.2 ix hix
    dsimp only at this
    rwa [hr ix hix] at this
  · cases hb

/-! ### Gather -/

theorem getD_eq {l : List Nat} {i : Nat} (h : i < l.length) : l.getD i 0 = l[i] := by
  rw [List.getD_eq_getElem?_getD, List.getElem?_eq_getElem h, Option.getD_some]

theorem bcast_self (s : List Nat) : NArr.bcast s s = some s := by
  unfold NArr.bcast
  simp only [Nat.max_self, NArr.padLeft, Nat.sub_self, List.replicate_zero, List.nil_append]
  induction s with
  | nil => rfl
  | cons d s ih =>
    have h : NArr.bcastDim d d = some d := by simp [NArr.bcastDim]
    simp only [List.zip_cons_cons, mapOpt, h, Option.bind_some, ih]

/-- Where nothing is broadcast, PyTorch gathers like NumPy. -/
theorem torchGather_eq (axis : Nat) (a : A F) (b : NArr Int) (hr : a.rank = b.rank) (hax : axis < a.rank)
    (h : ∀ k, k ≠ axis → a.shape.getD k 0 = b.shape.getD k 0) : torchGather axis a b = a.gather axis b := by
  unfold torchGather NArr.gather
  have hr' : a.shape.length = b.shape.length := hr
  have hax' : axis < a.shape.length := hax
  rw [if_pos ⟨hr, hax, fun k _ hk => by rw [h k hk]⟩, if_pos ⟨hr, hax⟩]
  have e : a.shape.set axis (b.shape.getD axis 0) = b.shape := by
    refine List.ext_getElem (by simpa using hr') (fun i h1 h2 => ?_)
    rw [List.getElem_set]
    split
    · subst_vars; exact getD_eq h2
    · rename_i hi
      have := h i (fun e => hi e.symm)
      rw [List.length_set] at h1
      rwa [getD_eq h1, getD_eq h2] at this
  rw [e, bcast_self, Option.bind_some]
  have key : ∀ ix, InRange b.shape ix →
      ((b.get? ix).bind fun i => a.get? (ix.set axis (Val.clip (a.shape.getD axis 0) i))) =
      ((b.get? (NArr.bcastIx b.shape ix)).bind fun i =>
        a.get? ((NArr.bcastIx a.shape ix).set axis (Val.clip (a.shape.getD axis 0) i))) := by
    intro ix hix
    rw [bcastIx_self hix]
    congr 1
    funext i
    congr 1
    have hl := hix.length
    have hrange := (inRange_iff.1 hix).2
    unfold NArr.bcastIx
    rw [hr', hl, Nat.sub_self, List.drop_zero]
    refine List.ext_getElem (by simp [hr', hl]) (fun j h1 h2 => ?_)
    rw [List.getElem_set, List.getElem_set]
    split
    · rfl
    · rename_i hj
      rw [List.length_set] at h1
      rw [List.getElem_zipWith]
      split
      · rename_i hd
        have hja : j < a.shape.length := by omega
        have hjb : j < b.shape.length := by omega
        have := h j (fun e => hj e.symm)
        rw [getD_eq hja, getD_eq hjb, hd] at this
        have := hrange j _ _ (List.getElem?_eq_getElem hjb) (List.getElem?_eq_getElem h1)
        omega
      · rfl
  cases hg : NArr.ofFn? b.shape (fun ix => (b.get? (NArr.bcastIx b.shape ix)).bind fun i =>
      a.get? ((NArr.bcastIx a.shape ix).set axis (Val.clip (a.shape.getD axis 0) i))) with
  | some c =>
    rw [NArr.ofFn?_eq_some] at hg ⊢
    exact ⟨hg.1, fun ix hix => by rw [key ix hix]; exact hg.2 ix hix⟩
  | none =>
    cases hg' : NArr.ofFn? b.shape (fun ix => (b.get? ix).bind fun i =>
        a.get? (ix.set axis (Val.clip (a.shape.getD axis 0) i))) with
    | none => rfl
    | some c =>
      rw [NArr.ofFn?_eq_some] at hg'
      have : NArr.ofFn? b.shape (fun ix => (b.get? (NArr.bcastIx b.shape ix)).bind fun i =>
        a.get? ((NArr.bcastIx a.shape ix).set axis (Val.clip (a.shape.getD axis 0) i))) = some c :=
        NArr.ofFn?_eq_some.2 ⟨hg'.1, fun ix hix => by rw [← key ix hix]; exact hg'.2 ix hix⟩
      rw [hg] at this
      cases this

/-! ### Padding -/

/-- Widths that read the same backwards are no problem for PyTorch. -/
theorem torchPad_eq (pads : List (Int × Int)) (a : A F) (h1 : 1 ≤ a.rank) (h3 : a.rank ≤ 3)
    (hne : a.shape.prod ≠ 0) (hp : pads.reverse = pads) : torchPad pads a = a.pad pads := by
  unfold torchPad
  rw [if_pos ⟨h1, h3, hne⟩, hp]

/-- All elements are floats. -/
def floats (a : A F) : Bool := a.data.all fun x => decide (x.kind = .float)

theorem floats_get {a : A F} (h : floats a = true) {ix : List Nat} {x : Scal F} (hx : a.get? ix = some x) :
    x.kind = .float := by
  have hm : x ∈ a.data := by
    unfold NArr.get? at hx
    split at hx
    · exact List.mem_of_getElem? hx
    · cases hx
  exact of_decide_eq_true (List.all_eq_true.1 h x hm)

variable [FloatOps F]

omit [FloatOps F] in
theorem prod_zero {s : List Nat} (h : 0 ∈ s) : s.prod = 0 := by
  induction s with
  | nil => cases h
  | cons d s ih =>
    rw [List.prod_cons]
    rcases List.mem_cons.1 h with rfl | h
    · exact Nat.zero_mul _
    · rw [ih h, Nat.mul_zero]

/-- Padding one axis of an array of floats, NumPy's shortcut gives what `pad` gives. -/
theorem fastEdgePad_eq {a : A F} {p : Nat} (hp : p < a.rank) (hne : a.shape.prod ≠ 0) (hf : floats a = true)
    {l r : Int} (hl : 0 ≤ l) (hr : 0 ≤ r) :
    fastEdgePad (NArr.putAt a.rank p (l, r) (0, 0)) a = a.pad (NArr.putAt a.rank p (l, r) (0, 0)) := by
  have hm : a.shape[p]? = some (a.shape[p]'hp) := List.getElem?_eq_getElem hp
  have hpos : 0 < a.shape[p]'hp := by
    rcases Nat.eq_zero_or_pos (a.shape[p]'hp) with h | h
    · exact absurd (prod_zero (h ▸ List.getElem_mem hp)) hne
    · exact h
  obtain ⟨b, hb, hbs, hbg⟩ := fastEdgePad_at hm hne hl hr
  obtain ⟨c, hc, hcs, hcg⟩ := NArr.pad_at hm hpos hl hr
  rw [hb, hc]
  congr 1
  refine NArr.ext_get? (hbs.trans hcs.symm) (fun ix hix => ?_)
  rw [hbg ix hix, hcg ix (by rw [hcs, ← hbs]; exact hix)]
  cases hg : a.get? (ix.set p (Val.clip (a.shape[p]'hp) ((ix.getD p 0 : Nat) - l))) with
  | none => rfl
  | some x =>
    have := floats_get hf hg
    simp only [Option.map_some]
    split
    · rfl
    · cases x <;> simp_all [Scal.kind, toFloat]

/-! ### Evaluation -/

/-- What the primitives `P` give, `Q` give as well, in this operation. -/
def HeadLe (P Q : Prims F) : Yarr.Head F → Prop
  | .squeeze axes => ∀ a, Le (P.squeeze axes a) (Q.squeeze axes a)
  | .unsqueeze axes => ∀ a, Le (P.unsqueeze axes a) (Q.unsqueeze axes a)
  | .gather axis => ∀ a b, Le (P.gather axis a b) (Q.gather axis a b)
  | .pad l r => ∀ a bs, Le (padWith P.pad l r a bs) (padWith Q.pad l r a bs)
  | .reduce _ _ axis => (∀ a, Le (P.unsqueeze [axis] a) (Q.unsqueeze [axis] a)) ∧
      ∀ a, Le (P.squeeze [axis] a) (Q.squeeze [axis] a)
  | _ => True

theorem reduceWith_le {P Q : Prims F} {axis : Nat} (hu : ∀ a, Le (P.unsqueeze [axis] a) (Q.unsqueeze [axis] a))
    (hq : ∀ a, Le (P.squeeze [axis] a) (Q.squeeze [axis] a)) {init vecs : YVal F}
    {xy xy' : YVal F → YVal F → Option (YVal F)} (h : ∀ l r, Le (xy l r) (xy' l r)) :
    Le (reduceWith P axis init vecs xy) (reduceWith Q axis init vecs xy') := by
  have hall : ∀ l : List (A F), List.Forall₂ Eq l l := fun l => List.forall₂_same.2 (fun _ _ => rfl)
  have hmu : ∀ l : List (A F), Le (mapOpt (P.unsqueeze [axis]) l) (mapOpt (Q.unsqueeze [axis]) l) := by
    intro l; exact mapOpt_le ((hall l).imp (fun a b e => e ▸ hu a))
  have hmq : ∀ l : List (A F), Le (mapOpt (P.squeeze [axis]) l) (mapOpt (Q.squeeze [axis]) l) := by
    intro l; exact mapOpt_le ((hall l).imp (fun a b e => e ▸ hq a))
  unfold reduceWith
  refine Le.bind Le.rfl (fun acc _ => ?_)
  split
  · refine Le.bind (hmu _) (fun _ _ => Le.bind (redLoop_le (fun l r => ?_) _ _ _ _)
      (fun _ _ => Le.bind (hmq _) (fun _ _ => Le.rfl)))
    exact Le.bind Le.rfl (fun _ _ => Le.bind Le.rfl (fun _ _ => (h _ _).bind (fun _ _ => Le.rfl)))
  · exact Le.rfl

theorem arr1_le' {f g : A F → Option (A F)} (hfg : ∀ a, Le (f a) (g a)) {a b : Option (YVal F)} (h : Le a b) :
    Le (arr1 f a) (arr1 g b) :=
  (h.bind (fun _ _ => Le.rfl)).bind (fun _ _ => (hfg _).bind (fun _ _ => Le.rfl))

theorem denP_le {P Q : Prims F} (J : YExt F) {h : Yarr.Head F} (hh : HeadLe P Q h)
    {fs gs : List (Env (YVal F) → Option (YVal F))} (hfg : List.Forall₂ (fun f g => ∀ env, Le (f env) (g env)) fs gs)
    (env : Env (YVal F)) : Le (denP P J h fs env) (denP Q J h gs env) := by
  have hden : Le (Yarr.den J h fs env) (Yarr.den J h gs env) := by
    refine den_mono J h fs gs env env hfg.length_eq (fun _ _ => Le.rfl) (fun k f g hf hg => ?_)
    have := List.forall₂_iff_get.1 hfg
    obtain ⟨h1, rfl⟩ := List.getElem?_eq_some_iff.1 hf
    obtain ⟨h2, rfl⟩ := List.getElem?_eq_some_iff.1 hg
    have h3 := this.2 k h1 h2
    exact ⟨fun _ => h3 _, fun _ _ => h3 _⟩
  cases h with
  | squeeze axes =>
    match fs, gs, hfg with
    | [f], [g], .cons h1 .nil => exact arr1_le' hh (h1 env)
    | [], _, .nil => exact hden
    | _ :: _ :: _, _ :: _ :: _, .cons _ (.cons _ _) => exact hden
  | unsqueeze axes =>
    match fs, gs, hfg with
    | [f], [g], .cons h1 .nil => exact arr1_le' hh (h1 env)
    | [], _, .nil => exact hden
    | _ :: _ :: _, _ :: _ :: _, .cons _ (.cons _ _) => exact hden
  | gather axis =>
    match fs, gs, hfg with
    | [f, f'], [g, g'], .cons h1 (.cons h2 .nil) =>
      exact ((h1 env).bind (fun _ _ => Le.rfl)).bind
        (fun a _ => arr1_le' (fun b => Le.bind Le.rfl (fun ix _ => hh a ix)) (h2 env))
    | [], _, .nil => exact hden
    | [_], [_], .cons _ .nil => exact hden
    | _ :: _ :: _ :: _, _ :: _ :: _ :: _, .cons _ (.cons _ (.cons _ _)) => exact hden
  | pad l r =>
    match fs, gs, hfg with
    | f :: fs, g :: gs, .cons h1 hr =>
      exact (arrs_le (hr.imp (fun _ _ h => h env))).bind (fun bs _ => arr1_le' (fun a => hh a bs) (h1 env))
    | [], _, .nil => exact hden
  | reduce x y axis =>
    match fs, gs, hfg with
    | [z, b, v], [z', b', v'], .cons h1 (.cons h2 (.cons h3 .nil)) =>
      exact (h1 env).bind (fun _ _ => (h3 env).bind (fun _ _ =>
        reduceWith_le hh.1 hh.2 (fun l r => h2 _)))
    | [], _, .nil => exact hden
    | [_], [_], .cons _ .nil => exact hden
    | [_, _], [_, _], .cons _ (.cons _ .nil) => exact hden
    | _ :: _ :: _ :: _ :: _, _ :: _ :: _ :: _ :: _, .cons _ (.cons _ (.cons _ (.cons _ _))) => exact hden
  | _ => exact hden

theorem evalP_le {P Q : Prims F} (J : YExt F) (e : YExpr F) (h : ∀ u, Occurs u e → HeadLe P Q u.head)
    (env : Env (YVal F)) : Le (evalP P J e env) (evalP Q J e env) := by
  induction e using Term.ind generalizing env with
  | step hd ts ih =>
    rw [evalP_node, evalP_node]
    refine denP_le J (h _ (.refl _)) ?_ env
    rw [List.forall₂_map_left_iff, List.forall₂_map_right_iff]
    exact List.forall₂_same.2 (fun t ht => ih t ht (fun u hu => h u (.child ht hu)))

end Verif.Backend
