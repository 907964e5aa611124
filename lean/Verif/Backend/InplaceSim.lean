import Verif.Backend.Inplace

/-! Execution with shared memory and in-place operations computes what `evalI` does, and writes to new buffers only. -/

set_option linter.unusedSectionVars false

namespace Verif.Backend
open Verif.Term Verif.Phi Verif.Arr Verif.Yarr Verif.Midend
variable {F : Type}

/-! ### Views and copies -/

theorem sim_viewM {f : A F → Option (A F)} {g : Ref → Ref}
    (hg : ∀ H r a v, Shows H r a → f a = some v → Shows H (g r) v) {H : Mem F} {r : Ref} {a : A F}
    (h : Shows H r a) : Sim Shows H (viewM f g r) (f a) := by
  have h1 : Sim (F := F) Shows H (viewM f g r) ((some a).bind fun a' => (f a').bind fun v => some v) := by
    refine Sim.bind (R := fun H' x y => x = y ∧ Shows H' r y) ⟨List.prefix_rfl, ?_⟩ ?_
    · show OptRel _ (r.read H) (some a)
      rw [show r.read H = some a from h]
      exact ⟨rfl, h⟩
    · rintro H' x y hp ⟨rfl, hx⟩
      refine Sim.bind (R := fun H' u v => u = v ∧ f x = some v) (Sim.ofOpt ?_) ?_
      · cases e : f x
        · trivial
        · exact ⟨rfl, rfl⟩
      · rintro H'' u v hp' ⟨rfl, hv⟩
        exact Sim.ret (hg _ _ _ _ (Shows.stable hp' hx) hv)
  simpa using h1

theorem sim_copyM {f : A F → Option (A F)} {H : Mem F} {r : Ref} {a : A F} (h : Shows H r a) :
    Sim Shows H (copyM f r) (f a) := by
  have h1 : Sim (F := F) Shows H (copyM f r) ((some a).bind fun a' => (f a').bind fun v => some v) := by
    refine Sim.bind (sim_loadRef h) ?_
    rintro H' x _ hp rfl
    refine Sim.bind (R := fun _ u v => u = v) (Sim.ofOpt ?_) ?_
    · cases f x
      · trivial
      · exact rfl
    · rintro H'' u _ hp' rfl
      exact sim_alloc u
  simpa using h1

theorem shows_unsqueeze {axes : List Nat} {H : Mem F} {r : Ref} {a v : A F} (h : Shows H r a)
    (hv : a.unsqueeze axes = some v) : Shows H (r.view
      (NArr.spread axes 1 0 (axes.length + r.shape.length) r.shape) (fun ix => NArr.dropAt axes 0 ix)) v := by
  unfold NArr.unsqueeze NArr.rank at hv
  split at hv
  · have e := h.shape
    rw [e] at hv
    exact h.view hv
  · cases hv

theorem shows_squeeze {axes : List Nat} {H : Mem F} {r : Ref} {a v : A F} (h : Shows H r a)
    (hv : a.squeeze axes = some v) : Shows H (r.view (NArr.dropAt axes 0 r.shape)
      (fun ix => NArr.spread axes 0 0 r.shape.length ix)) v := by
  unfold NArr.squeeze NArr.rank at hv
  split at hv
  · have e := h.shape
    rw [e] at hv
    exact h.view hv
  · cases hv

theorem shows_transpose {perm : List Nat} {H : Mem F} {r : Ref} {a v : A F} (h : Shows H r a)
    (hv : a.transpose perm = some v) : Shows H (r.view (perm.map (fun j => r.shape.getD j 0))
      (fun ix => (List.range r.shape.length).map fun j => ix.getD (perm.idxOf j) 0)) v := by
  unfold NArr.transpose NArr.rank at hv
  split at hv
  · have e := h.shape
    rw [e] at hv
    exact h.view hv
  · cases hv

theorem shows_stride {axis start count : Nat} {H : Mem F} {r : Ref} {a v : A F} (h : Shows H r a)
    (hv : stride axis start count a = some v) : Shows H (r.view (r.shape.set axis count)
      (fun ix => ix.set axis (start + 2 * ix.getD axis 0))) v := by
  unfold stride at hv
  split at hv
  · have e := h.shape
    rw [e] at hv
    exact h.view hv
  · cases hv

theorem shows_slice {ss es : List (Option Int)} {H : Mem F} {r : Ref} {a v : A F} (h : Shows H r a)
    (hv : a.slice ss es = some v) :
    Shows H (r.view (((r.shape.zip (ss.zip es)).map (fun p => NArr.sliceDim p.1 p.2.1 p.2.2)).map Prod.snd)
      (fun ix => List.zipWith (· + ·)
        (((r.shape.zip (ss.zip es)).map (fun p => NArr.sliceDim p.1 p.2.1 p.2.2)).map Prod.fst) ix)) v := by
  unfold NArr.slice at hv
  split at hv
  · have e := h.shape
    dsimp only at hv
    rw [e] at hv
    exact h.view hv
  · cases hv

theorem item_of_asSize {b : A F} {i : Int} (h : asSize b = some i) :
    b.shape = [] ∧ b.get? [] = some (.i i) := by
  unfold asSize NArr.item at h
  simp only [Option.bind_eq_some_iff] at h
  obtain ⟨s, h1, h2⟩ := h
  refine ⟨List.eq_nil_of_length_eq_zero ?_, ?_⟩
  · have := (NArr.inRange_of_get? h1).length
    simpa using this
  · cases s <;> simp [scalInt] at h2
    rw [← h2]; exact h1

/-- Taking at an index without dimensions is a view. -/
theorem shows_take {axis : Nat} {b : A F} {ix : NArr Int} {i : Int} {H : Mem F} {r : Ref} {a v : A F}
    (h : Shows H r a) (hb : asSize b = some i) (hix : asInts b = some ix) (hv : a.take axis ix = some v) :
    Shows H (r.view (r.shape.take axis ++ r.shape.drop (axis + 1))
      (fun jx => jx.take axis ++ Val.clip (r.shape.getD axis 0) i :: jx.drop axis)) v := by
  obtain ⟨hs, hg⟩ := item_of_asSize hb
  unfold asInts NArr.mapM? at hix
  obtain ⟨hs', hg'⟩ := NArr.ofFn?_eq_some.1 hix
  rw [hs] at hs' hg'
  have hi : ix.get? [] = some i := by
    rw [(hg' [] (by simp)).1, hg]; rfl
  unfold NArr.take at hv
  split at hv
  · have e := h.shape
    refine h.view ?_
    unfold NArr.reindex
    rw [← hv, hs', ← e, List.append_nil]
    congr 1
    funext jx
    have : ix.rank = 0 := by rw [NArr.rank, hs']; rfl
    rw [this, List.take_zero, hi, Option.bind_some, Nat.add_zero]
  · cases hv

/-! ### Lists -/

theorem sim_seq_map {m : Ref → M F Ref} {f : A F → Option (A F)}
    (hm : ∀ H r a, Shows H r a → Sim Shows H (m r) (f a)) {H : Mem F} {rs : List Ref} {as : List (A F)}
    (h : List.Forall₂ (Shows H) rs as) :
    Sim (fun H' => List.Forall₂ (Shows H')) H (M.seq (rs.map m)) (mapOpt f as) := by
  have h1 : List.Forall₂ (fun m o => ∀ H', H <+: H' → Sim Shows H' m o) (rs.map m) (as.map f) := by
    rw [List.forall₂_map_left_iff, List.forall₂_map_right_iff]
    exact h.imp (fun r a hr H' hp => hm H' r a (Shows.stable hp hr))
  have h2 := Sim.seq Shows.stable h1
  rwa [mapOpt_map] at h2

/-- Values of the same form. -/
theorem toRefs_rel {H : Mem F} {v : HVal} {y : YVal F} (h : ShowsV H v y) (single : Bool) :
    OptRel (List.Forall₂ (Shows H)) (toRefs single v) (toArrs single y) := by
  cases v with
  | arr r =>
    obtain ⟨a, rfl, ha⟩ := showsV_arr.1 h
    cases single
    · trivial
    · exact .cons ha .nil
  | tup rs =>
    obtain ⟨as, rfl, ha⟩ := showsV_tup.1 h
    cases single
    · exact ha
    · trivial

theorem ofRefs_rel {H : Mem F} {rs : List Ref} {as : List (A F)} (h : List.Forall₂ (Shows H) rs as)
    (single : Bool) : OptRel (ShowsV H) (ofRefs single rs) (ofArrs single as) := by
  cases single with
  | false => exact showsV_tup.2 ⟨_, rfl, h⟩
  | true =>
    rcases h with _ | ⟨h1, _ | ⟨h2, h3⟩⟩
    · trivial
    · exact showsV_arr.2 ⟨_, rfl, h1⟩
    · trivial

/-! ### Reductions -/

theorem sim_redLoop {xyM : List Ref → List Ref → M F (List Ref)}
    {xy : List (A F) → List (A F) → Option (List (A F))} {H₀ : Mem F}
    (hxy : ∀ H l l' as as', H₀ <+: H → List.Forall₂ (Shows H) l as → List.Forall₂ (Shows H) l' as' →
      Sim (fun H' => List.Forall₂ (Shows H')) H (xyM l l') (xy as as')) (axis : Nat) (fuel n : Nat)
    (H : Mem F) (hH : H₀ <+: H) {acc vals : List Ref} {accV valsV : List (A F)}
    (ha : List.Forall₂ (Shows H) acc accV) (hv : List.Forall₂ (Shows H) vals valsV) :
    Sim (fun H' => List.Forall₂ (Shows H')) H (redLoopM xyM axis fuel n acc vals)
      (redLoop xy axis fuel n accV valsV) := by
  have st := Shows.stable (F := F) |>.forall₂
  have hone : ∀ k, ∀ (H : Mem F) r a, Shows H r a → Sim Shows H (oneSliceM axis k r) (oneSlice axis k a) :=
    fun k H r a h => sim_copyM h
  have hstr : ∀ s c, ∀ (H : Mem F) r a, Shows H r a → Sim Shows H (strideM axis s c r) (stride axis s c a) :=
    fun s c H r a h => sim_viewM (fun _ _ _ _ h hv => shows_stride h hv) h
  induction fuel generalizing n H acc vals accV valsV with
  | zero => exact Sim.ofOpt trivial
  | succ fuel ih =>
    unfold redLoopM redLoop
    split
    · refine Sim.bind (R := fun H' => List.Forall₂ (Shows H')) ?_ (fun H1 acc' accV' hp1 h1 => ?_)
      · split
        · exact Sim.bind (sim_seq_map (hone _) hv) (fun H1 l lv hp1 hl =>
            hxy H1 _ _ _ _ (hH.trans hp1) hl (st hp1 ha))
        · exact Sim.ret ha
      · refine Sim.bind (sim_seq_map (hstr _ _) (st hp1 hv)) (fun H2 l lv hp2 h2 => ?_)
        refine Sim.bind (sim_seq_map (hstr _ _) (st hp2 (st hp1 hv))) (fun H3 r rv hp3 h3 => ?_)
        refine Sim.bind (hxy H3 _ _ _ _ (hH.trans (hp1.trans (hp2.trans hp3))) (st hp3 h2) h3)
          (fun H4 vals' vv hp4 h4 => ?_)
        exact ih _ H4 (hH.trans (hp1.trans (hp2.trans (hp3.trans hp4)))) (st hp4 (st hp3 (st hp2 h1))) h4
    · split
      · exact Sim.bind (sim_seq_map (hone _) hv) (fun H1 l lv hp1 hl =>
          hxy H1 _ _ _ _ (hH.trans hp1) hl (st hp1 ha))
      · exact Sim.ret ha

theorem showsV_refs {H : Mem F} {v : HVal} {y : YVal F} (h : ShowsV H v y) :
    List.Forall₂ (Shows H) v.refs y.arrs := by
  cases v with
  | arr r =>
    obtain ⟨a, rfl, ha⟩ := showsV_arr.1 h
    exact .cons ha .nil
  | tup rs =>
    obtain ⟨as, rfl, ha⟩ := showsV_tup.1 h
    exact ha

theorem forall₂_map_shape {H : Mem F} {rs : List Ref} {as : List (A F)} (axis : Nat)
    (h : List.Forall₂ (Shows H) rs as) :
    rs.map (fun r : Ref => r.shape[axis]?) = as.map (fun a : A F => a.shape[axis]?) := by
  induction h with
  | nil => rfl
  | cons h1 _ ih => rw [List.map_cons, List.map_cons, ih, h1.shape]

theorem sim_reduce {axis : Nat} {xyM : HVal → HVal → M F HVal} {xy : YVal F → YVal F → Option (YVal F)}
    {H : Mem F} (hxy : ∀ H' p q y z, H <+: H' → ShowsV H' p y → ShowsV H' q z →
      Sim ShowsV H' (xyM p q) (xy y z)) {init vecs : HVal} {i v : YVal F} (hi : ShowsV H init i)
    (hv : ShowsV H vecs v) : Sim ShowsV H (reduceMem axis init vecs xyM) (Yarr.reduceOf axis i v xy) := by
  have hrs := showsV_refs hv
  have st := Shows.stable (F := F) |>.forall₂
  suffices hmain : Sim ShowsV H (reduceMem axis init vecs xyM)
      ((toArrs vecs.isArr i).bind fun acc =>
        match (v.arrs.map (fun a : A F => a.shape[axis]?)).dedup with
        | [some n] =>
          (mapOpt (NArr.unsqueeze [axis]) acc).bind fun acc =>
          (redLoop (fun x y => (ofArrs vecs.isArr x).bind fun x => (ofArrs vecs.isArr y).bind fun y =>
            (xy x y).bind (toArrs vecs.isArr)) axis (n + 1) n acc v.arrs).bind fun acc =>
          (mapOpt (NArr.squeeze [axis]) acc).bind (ofArrs vecs.isArr)
        | _ => none) by
    cases vecs with
    | arr r => obtain ⟨a, rfl, _⟩ := showsV_arr.1 hv; exact hmain
    | tup rs => obtain ⟨as, rfl, _⟩ := showsV_tup.1 hv; exact hmain
  unfold reduceMem
  refine Sim.bind (Sim.ofOpt (R := fun H' => List.Forall₂ (Shows H')) (toRefs_rel hi _))
    (fun H1 acc accV hp1 h1 => ?_)
  rw [forall₂_map_shape axis hrs]
  split
  · rename_i n hd
    simp only [hd]
    refine Sim.bind (sim_seq_map (f := NArr.unsqueeze [axis])
      (fun H r a h => sim_viewM (fun _ _ _ _ h hv => shows_unsqueeze h hv) h) h1)
      (fun H2 acc2 accV2 hp2 h2 => ?_)
    have hp12 := hp1.trans hp2
    refine Sim.bind (sim_redLoop (H₀ := H) ?_ axis _ _ H2 hp12 h2 (st hp12 hrs)) (fun H3 acc3 accV3 hp3 h3 => ?_)
    · intro H' l l' as as' hp hl hl'
      refine Sim.bind (Sim.ofOpt (ofRefs_rel hl _)) (fun H1 x xv hq1 hx => ?_)
      refine Sim.bind (Sim.ofOpt (ofRefs_rel (st hq1 hl') _)) (fun H2 y yv hq2 hy => ?_)
      have := Sim.bind (S := fun H' => List.Forall₂ (Shows H')) (f := fun z => M.ofOpt (toRefs vecs.isArr z))
        (g := toArrs vecs.isArr)
        (hxy H2 x y xv yv (hp.trans (hq1.trans hq2)) (ShowsV.stable hq2 hx) hy)
        (fun H3 z zv hq3 hz => Sim.ofOpt (toRefs_rel hz _))
      exact this
    · exact Sim.bind (sim_seq_map (f := NArr.squeeze [axis])
        (fun H r a h => sim_viewM (fun _ _ _ _ h hv => shows_squeeze h hv) h) h3)
        (fun H4 rs as hp4 h4 => Sim.ofOpt (ofRefs_rel h4 _))
  · rename_i hn
    split
    · rename_i n hn'
      exact absurd hn' (hn n)
    · exact Sim.ofOpt trivial

/-! ### Bound values -/

theorem sim_boundRef (B : Machine F) {H : Mem F} {r : Ref} {a : A F} (h : Shows H r a) :
    Sim Shows H (boundRef B r) (some a) := by
  unfold Sim boundRef
  by_cases hc : B.copies r H
  · simp only [hc, if_true]
    have := Sim.bind (S := Shows) (f := alloc) (g := fun a => some a) (sim_loadRef h)
      (fun H' x y _ e => by rw [← e]; exact sim_alloc x)
    exact this
  · simp only [hc]
    exact ⟨List.prefix_rfl, h⟩

theorem sim_boundVal (B : Machine F) {H : Mem F} {v : HVal} {y : YVal F} (h : ShowsV H v y) :
    Sim ShowsV H (boundVal B v) (some y) := by
  cases v with
  | arr r =>
    obtain ⟨a, rfl, ha⟩ := showsV_arr.1 h
    exact Sim.bind (S := ShowsV) (g := fun a => some (YVal.arr a)) (sim_boundRef B ha)
      (fun H' r' a' _ h' => Sim.ret (showsV_arr.2 ⟨a', rfl, h'⟩))
  | tup rs =>
    obtain ⟨as, rfl, ha⟩ := showsV_tup.1 h
    have h1 := sim_seq_map (m := boundRef B) (f := fun a => some a) (fun H r a h => sim_boundRef B h) ha
    rw [mapOpt_self] at h1
    exact Sim.bind (S := ShowsV) (g := fun as => some (YVal.tup as)) h1
      (fun H' rs' as' _ h' => Sim.ret (showsV_tup.2 ⟨as', rfl, h'⟩))

/-! ### Strict functions -/

section
variable [FloatOps F]

/-- Sub-terms of these nodes are evaluated in the environment of the node, and used only if all of them have
values. -/
def strictHead : Yarr.Head F → Bool
  | .const _ _ => false
  | .var _ _ => false
  | .letv _ => false
  | .fold _ _ => false
  | .reduce _ _ _ => false
  | _ => true

theorem arrsOf_strict (fs : List (Env (YVal F) → Option (YVal F))) (env env' : Env (YVal F)) :
    arrsOf (fs.map (· env)) = (mapOpt (fun f => f env) fs).bind fun ys =>
      arrsOf ((ys.map (fun y (_ : Env (YVal F)) => some y)).map (· env')) := by
  unfold arrsOf
  induction fs with
  | nil => rfl
  | cons f fs ih =>
    simp only [List.map_cons, mapOpt, ih]
    cases hf : f env with
    | none => rfl
    | some y =>
      cases hm : mapOpt (fun f => f env) fs with
      | none => cases y <;> rfl
      | some ys => rfl

theorem den_strict (J : YExt F) {h : Yarr.Head F} (hh : strictHead h = true)
    (fs : List (Env (YVal F) → Option (YVal F))) (env : Env (YVal F)) :
    Yarr.den J h fs env = (mapOpt (fun f => f env) fs).bind fun ys =>
      Yarr.den J h (ys.map (fun y _ => some y)) (fun _ => none) := by
  have key : ∀ (k : List (A F) → Option (YVal F)), (arrsOf (fs.map (· env))).bind k =
      (mapOpt (fun f => f env) fs).bind fun ys =>
        (arrsOf ((ys.map (fun y (_ : Env (YVal F)) => some y)).map (· (fun _ => none)))).bind k := by
    intro k
    rw [arrsOf_strict fs env (fun _ => none)]
    cases mapOpt (fun f => f env) fs <;> rfl
  cases h <;> simp only [strictHead, Bool.false_eq_true] at hh
  case concat => exact key _
  case elem => exact key _
  case tuple => exact key _
  case einsum => exact key _
  case ext fn τ =>
    simp only [Yarr.den, mapOpt_map]
    cases hm : mapOpt (fun f => f env) fs with
    | none => rfl
    | some ys =>
      simp only [Option.bind_some]
      rw [mapOpt_self]
      rfl
  case take | slice | pad =>
    cases fs with
    | nil => rfl
    | cons f fs =>
      simp only [Yarr.den, mapOpt]
      rw [arrsOf_strict fs env (fun _ => none)]
      cases hf : f env with
      | none =>
        cases mapOpt (fun f => f env) fs with
        | none => rfl
        | some ys => simp [arr1]
      | some y =>
        cases mapOpt (fun f => f env) fs with
        | none => rfl
        | some ys => rfl
  all_goals
    rcases fs with _ | ⟨f, _ | ⟨g, _ | ⟨k, fs⟩⟩⟩
    · rfl
    · simp only [Yarr.den, mapOpt]
      cases f env <;> rfl
    · simp only [Yarr.den, mapOpt]
      cases f env <;> cases g env <;> try rfl
      all_goals first | rfl | (rename_i y; cases y <;> rfl) | (simp [arr1, YVal.asArr])
    · simp only [mapOpt]
      cases f env <;> cases g env <;> cases k env <;> cases mapOpt (fun f => f env) fs <;> rfl

/-- Arrays that `numpy.einsum` and external functions return without allocating show the right values. -/
def Machine.Lawful (B : Machine F) (J : YExt F) : Prop :=
  ∀ h vs H ys y v, mayAlias h = true → List.Forall₂ (ShowsV H) vs ys →
    Yarr.den J h (ys.map (fun y _ => some y)) (fun _ => none) = some y → B.other h vs H = some v → ShowsV H v y

theorem arr1_eq_some {f : A F → Option (A F)} {y z : YVal F} (h : arr1 f (some y) = some z) :
    ∃ a b, y = .arr a ∧ f a = some b ∧ z = .arr b := by
  cases y with
  | tup as => cases h
  | arr a =>
    simp only [arr1, Option.bind_some, YVal.asArr, Option.bind_eq_some_iff, Option.some.injEq] at h
    obtain ⟨b, h1, h2⟩ := h
    exact ⟨a, b, rfl, h1, h2.symm⟩

/-- Views show the value of the function. -/
theorem shows_viewOf {J : YExt F} {h : Yarr.Head F} {vs : List HVal} {H : Mem F} {ys : List (YVal F)}
    {y : YVal F} {v : HVal} (hv : List.Forall₂ (ShowsV H) vs ys)
    (hd : Yarr.den J h (ys.map (fun y _ => some y)) (fun _ => none) = some y)
    (hvw : viewOf h vs ys = some v) : ShowsV H v y := by
  unfold viewOf at hvw
  split at hvw
  · cases hv with
    | cons h1 h2 =>
      cases h2
      obtain ⟨a, rfl, ha⟩ := showsV_arr.1 h1
      obtain ⟨a', b, he, hb, rfl⟩ := arr1_eq_some hd
      cases he; cases hvw
      exact showsV_arr.2 ⟨b, rfl, shows_transpose ha hb⟩
  · cases hv with
    | cons h1 h2 =>
      cases h2
      obtain ⟨a, rfl, ha⟩ := showsV_arr.1 h1
      obtain ⟨a', b, he, hb, rfl⟩ := arr1_eq_some hd
      cases he; cases hvw
      exact showsV_arr.2 ⟨b, rfl, shows_squeeze ha hb⟩
  · cases hv with
    | cons h1 h2 =>
      cases h2
      obtain ⟨a, rfl, ha⟩ := showsV_arr.1 h1
      obtain ⟨a', b, he, hb, rfl⟩ := arr1_eq_some hd
      cases he; cases hvw
      exact showsV_arr.2 ⟨b, rfl, shows_unsqueeze ha hb⟩
  · cases hv with
    | cons h1 h2 =>
      obtain ⟨a, rfl, ha⟩ := showsV_arr.1 h1
      rename_i starts stops r _ _ ys
      simp only [List.map_cons, Yarr.den, Option.bind_eq_some_iff] at hd
      obtain ⟨bs, hbs, hd⟩ := hd
      obtain ⟨a', b, he, hb, rfl⟩ := arr1_eq_some hd
      cases he
      have hbs' : mapOpt YVal.asArr ys = some bs := by
        rw [← hbs]; unfold arrsOf; rw [List.map_map, mapOpt_map]; rfl
      rw [hbs', Option.bind_some] at hvw
      unfold sliceOf at hb
      simp only [Option.bind_eq_some_iff] at hb hvw
      obtain ⟨p, hp, q, hq, hb⟩ := hb
      obtain ⟨p', hp', q', hq', hvw⟩ := hvw
      rw [hp] at hp'; cases hp'
      rw [hq] at hq'; cases hq'
      split at hb
      · simp only [Option.bind_eq_some_iff] at hb
        obtain ⟨ss, hss, es, hes, hb⟩ := hb
        obtain ⟨ss', hss', es', hes', hvw⟩ := hvw
        rw [hss] at hss'; cases hss'
        rw [hes] at hes'; cases hes'
        cases hvw
        exact showsV_arr.2 ⟨b, rfl, shows_slice ha hb⟩
      · cases hb
  · rename_i items r _ _ b
    rcases hv with _ | ⟨h1, _ | ⟨h2, _ | _⟩⟩
    obtain ⟨a, rfl, ha⟩ := showsV_arr.1 h1
    simp only [Option.bind_eq_some_iff] at hvw
    obtain ⟨i, hi, hvw⟩ := hvw
    cases hvw
    simp only [List.map_cons, List.map_nil, Yarr.den, Option.bind_eq_some_iff] at hd
    obtain ⟨bs, hbs, hd⟩ := hd
    obtain ⟨a', c, he, hb, rfl⟩ := arr1_eq_some hd
    cases he
    cases hbs
    simp only [takeOf] at hb
    split at hb
    · simp only [Option.bind_eq_some_iff] at hb
      obtain ⟨ix, hix, hb⟩ := hb
      exact showsV_arr.2 ⟨c, rfl, shows_take ha hi hix hb⟩
    · cases hb
  · cases hvw

theorem reads_of_forall₂ {H : Mem F} {vs : List HVal} {ys : List (YVal F)}
    (hv : List.Forall₂ (ShowsV H) vs ys) : mapOpt (fun v : HVal => v.read H) vs = some ys :=
  mapOpt_iff_forall₂.2 hv

theorem sim_step {B : Machine F} {J : YExt F} (hB : B.Lawful J) {h : Yarr.Head F} {vs : List HVal}
    {H : Mem F} {ys : List (YVal F)} (hv : List.Forall₂ (ShowsV H) vs ys) :
    Sim ShowsV H (step B J h vs) (Yarr.den J h (ys.map (fun y _ => some y)) (fun _ => none)) := by
  unfold Sim step
  rw [reads_of_forall₂ hv, Option.bind_some]
  cases hd : Yarr.den J h (ys.map (fun y _ => some y)) (fun _ => none) with
  | none => exact ⟨List.prefix_rfl, trivial⟩
  | some y =>
    simp only [Option.bind_some]
    split
    · rename_i v hvw
      refine ⟨List.prefix_rfl, ?_⟩
      show ShowsV H v y
      split at hvw
      · rename_i hm
        exact hB h vs H ys y v hm hv hd hvw
      · exact shows_viewOf hv hd hvw
    · exact sim_allocVal y

/-- The result is the only reference to a new buffer. -/
def FreshAt (H : Mem F) (p : Option HVal × Mem F) : Prop :=
  ∀ v, p.1 = some v → ∃ r, v = .arr r ∧ Owned H p.2 r

theorem temp_arr {J : YExt F} {h : Yarr.Head F} (ht : isTemp h = true)
    {fs : List (Env (YVal F) → Option (YVal F))} {env : Env (YVal F)} {y : YVal F}
    (hd : Yarr.den J h fs env = some y) : ∃ a, y = .arr a := by
  have h1 : ∀ (f : A F → Option (A F)) o, arr1 f o = some y → ∃ a, y = .arr a := by
    intro f o h
    unfold arr1 at h
    simp only [Option.bind_eq_some_iff, Option.some.injEq] at h
    obtain ⟨_, _, b, _, rfl⟩ := h
    exact ⟨b, rfl⟩
  cases h <;> simp only [isTemp, Bool.false_eq_true] at ht
  case elem =>
    simp only [Yarr.den, Option.bind_eq_some_iff, Option.some.injEq] at hd
    obtain ⟨_, _, r, _, rfl⟩ := hd
    exact ⟨r, rfl⟩
  case pad =>
    rcases fs with _ | ⟨f, fs⟩
    · cases hd
    · simp only [Yarr.den, Option.bind_eq_some_iff] at hd
      obtain ⟨_, _, hd⟩ := hd
      exact h1 _ _ hd
  case repeat_ =>
    rcases fs with _ | ⟨f, _ | ⟨g, _ | ⟨k, fs⟩⟩⟩ <;> try cases hd
    simp only [Yarr.den, Option.bind_eq_some_iff] at hd
    obtain ⟨_, _, hd⟩ := hd
    exact h1 _ _ hd
  all_goals
    rcases fs with _ | ⟨f, _ | ⟨g, fs⟩⟩ <;> try cases hd
    exact h1 _ _ hd

theorem fresh_step {B : Machine F} {J : YExt F} {h : Yarr.Head F} (ht : isTemp h = true) {vs : List HVal}
    {H : Mem F} : FreshAt H (step B J h vs H) := by
  intro v hv
  unfold step at hv ⊢
  cases hr : mapOpt (fun v : HVal => v.read H) vs with
  | none => rw [hr] at hv; cases hv
  | some ys =>
    rw [hr, Option.bind_some] at hv
    rw [Option.bind_some]
    cases hd : Yarr.den J h (ys.map (fun y _ => some y)) (fun _ => none) with
    | none => rw [hd] at hv; cases hv
    | some y =>
      obtain ⟨a, rfl⟩ := temp_arr ht hd
      rw [hd, Option.bind_some] at hv
      have h1 : (if mayAlias h then B.other h vs H else viewOf h vs ys) = none := by
        cases h <;> simp only [isTemp, Bool.false_eq_true] at ht <;> rfl
      simp only [h1, Option.bind_some] at hv ⊢
      cases hv
      exact ⟨_, rfl, alloc_owned H a⟩

theorem FreshAt.bind {H : Mem F} {α : Type} {m : M F α} {f : α → M F HVal} (hp : H <+: (m H).2)
    (hf : ∀ a, (m H).1 = some a → FreshAt (m H).2 (f a (m H).2)) : FreshAt H ((m.bind f) H) := by
  unfold M.bind
  rcases e : m H with ⟨_ | a, H'⟩
  · intro v hv; cases hv
  · rw [e] at hp hf
    intro v hv
    obtain ⟨r, rfl, h⟩ := hf a rfl v hv
    exact ⟨r, rfl, h.earlier hp⟩

/-! ### In-place operations -/

theorem writeOut_shape {out res w : A F} (h : writeOut out res = some w) : w.shape = out.shape := by
  unfold writeOut at h
  split at h
  · cases h
  · split at h
    · exact (NArr.ofFn?_eq_some.1 h).1
    · cases h

theorem showsV_asRef {H : Mem F} {v : HVal} {y : YVal F} (h : ShowsV H v y) :
    OptRel (Shows H) v.asRef y.asArr := by
  cases v with
  | arr r => obtain ⟨a, rfl, ha⟩ := showsV_arr.1 h; exact ha
  | tup rs => obtain ⟨as, rfl, _⟩ := showsV_tup.1 h; trivial

/-- `call(x, y, out=out)` where `out` is owned by the caller. -/
theorem callOut_spec {o : ScalarOp} {H₀ H : Mem F} (hp : H₀ <+: H) {x y : HVal} {yx yy : YVal F} {r : Ref}
    {c : A F} (hx : ShowsV H x yx) (hy : ShowsV H y yy) (hr : Shows H r c) (ho : Owned H₀ H r) :
    H₀ <+: (callOut o x y (.arr r) H).2 ∧ FreshAt H₀ (callOut o x y (.arr r) H) ∧
      OptRel (ShowsV (callOut o x y (.arr r) H).2) (callOut o x y (.arr r) H).1
        (yx.asArr.bind fun a => yy.asArr.bind fun b => (NArr.zipAll (applyOp o) [a, b]).bind fun res =>
          (writeOut c res).bind fun w => some (.arr w)) := by
  have nope : ∀ (q : Option (YVal F)), q = none →
      H₀ <+: ((none, H) : Option HVal × Mem F).2 ∧ FreshAt H₀ ((none, H) : Option HVal × Mem F) ∧
      OptRel (ShowsV H) none q := by
    rintro q rfl
    exact ⟨hp, (fun v hv => nomatch hv), trivial⟩
  cases x with
  | tup rs =>
    obtain ⟨as, rfl, _⟩ := showsV_tup.1 hx
    exact nope _ rfl
  | arr rx =>
  obtain ⟨a, rfl, ha⟩ := showsV_arr.1 hx
  cases y with
  | tup rs =>
    obtain ⟨as, rfl, _⟩ := showsV_tup.1 hy
    exact nope _ rfl
  | arr ry =>
  obtain ⟨b, rfl, hb⟩ := showsV_arr.1 hy
  simp only [YVal.asArr, Option.bind_some]
  have e1 : callOut o (.arr rx) (.arr ry) (.arr r) H =
      ((M.ofOpt (NArr.zipAll (applyOp o) [a, b])).bind fun res => (M.ofOpt (writeOut c res)).bind fun w =>
        (storeRef r w).bind fun _ => M.ret (HVal.arr r)) H := by
    unfold callOut
    simp only [M.bind, M.ofOpt, HVal.asRef, loadRef, show rx.read H = some a from ha,
      show ry.read H = some b from hb, show r.read H = some c from hr]
  rw [e1]
  cases hz : NArr.zipAll (applyOp o) [a, b] with
  | none => exact nope _ rfl
  | some res =>
    simp only [Option.bind_some]
    cases hw : writeOut c res with
    | none => simp only [M.bind, M.ofOpt, hw]; exact nope _ rfl
    | some w =>
      obtain ⟨s1, s2, s3, s4⟩ := storeRef_owned hp ho ((writeOut_shape hw).trans hr.shape)
      have e2 : ((M.ofOpt (some res)).bind fun res => (M.ofOpt (writeOut c res)).bind fun w =>
          (storeRef r w).bind fun _ => M.ret (HVal.arr r)) H = (some (.arr r), H.set r.addr w) := by
        simp only [M.bind, M.ofOpt, hw, s1, M.ret]
      rw [e2]
      refine ⟨s2, ?_, showsV_arr.2 ⟨w, rfl, s4⟩⟩
      intro v hv
      cases hv
      exact ⟨r, rfl, s3⟩

/-- Two computations, and a call that writes to the result of the first one. -/
theorem sim_inplace {H : Mem F} {m1 m2 : M F HVal} {o1 o2 : Option (YVal F)} {call : HVal → HVal → M F HVal}
    {res : YVal F → YVal F → Option (YVal F)} (s1 : Sim ShowsV H m1 o1) (fr : FreshAt H (m1 H))
    (s2 : ∀ H1, H <+: H1 → Sim ShowsV H1 m2 o2)
    (hcall : ∀ H2 r c v2 y2, H <+: H2 → Owned H H2 r → Shows H2 r c → ShowsV H2 v2 y2 →
      H <+: (call (.arr r) v2 H2).2 ∧ FreshAt H (call (.arr r) v2 H2) ∧
        OptRel (ShowsV (call (.arr r) v2 H2).2) (call (.arr r) v2 H2).1 (res (.arr c) y2)) :
    Sim ShowsV H (m1.bind fun x => m2.bind fun y => call x y) (o1.bind fun y1 => o2.bind fun y2 => res y1 y2) ∧
      FreshAt H ((m1.bind fun x => m2.bind fun y => call x y) H) := by
  have hp1 := s1.1
  unfold Sim M.bind
  rcases e1 : m1 H with ⟨_ | x, H1⟩ <;> rw [e1] at hp1
  · have := s1.none_left (by rw [e1])
    subst this
    exact ⟨⟨hp1, trivial⟩, fun v hv => nomatch hv⟩
  · obtain ⟨y1, rfl, hy1⟩ := s1.of_some (by rw [e1])
    obtain ⟨r, rfl, ho⟩ := fr x (by rw [e1])
    rw [e1] at hy1 ho
    obtain ⟨c, rfl, hc⟩ := showsV_arr.1 hy1
    have s2 := s2 H1 hp1
    have hp2 := s2.1
    dsimp only
    rcases e2 : m2 H1 with ⟨_ | y, H2⟩ <;> rw [e2] at hp2
    · have := s2.none_left (by rw [e2])
      subst this
      exact ⟨⟨hp1.trans hp2, trivial⟩, fun v hv => nomatch hv⟩
    · obtain ⟨y2, rfl, hy2⟩ := s2.of_some (by rw [e2])
      rw [e2] at hy2
      obtain ⟨c1, c2, c3⟩ := hcall H2 r c y y2 (hp1.trans hp2) (ho.later hp2) (Shows.stable hp2 hc) hy2
      exact ⟨⟨c1, c3⟩, c2⟩

/-! ### Programs -/

/-- Constants show their values: `value.array` has not been written to. -/
def ConstsShown (B : Machine F) (e : YExpr F) (H : Mem F) : Prop :=
  ∀ v τ ts, Occurs (node (.const v τ) ts) e → ShowsV H (B.const v) v

/-- The arrays of the environment show these values. -/
def EnvShows (H : Mem F) (env : Env HVal) (yenv : Env (YVal F)) : Prop :=
  ∀ s, OptRel (ShowsV H) (env s) (yenv s)

theorem OptRel.imp {α β : Type} {R S : α → β → Prop} {a : Option α} {b : Option β} (h : OptRel R a b)
    (hRS : ∀ x y, R x y → S x y) : OptRel S a b := by
  cases a <;> cases b <;> first | trivial | exact h.elim | exact hRS _ _ h

theorem EnvShows.later {H H' : Mem F} {env : Env HVal} {yenv : Env (YVal F)} (h : EnvShows H env yenv)
    (hp : H <+: H') : EnvShows H' env yenv := fun s => (h s).imp (fun _ _ h => ShowsV.stable hp h)

theorem EnvShows.set {H : Mem F} {env : Env HVal} {yenv : Env (YVal F)} (h : EnvShows H env yenv) (s : Sym)
    {v : HVal} {y : YVal F} (hv : ShowsV H v y) : EnvShows H (env.set s (some v)) (yenv.set s (some y)) := by
  intro t
  unfold Env.set
  by_cases hst : t = s
  · simp only [hst, if_true]; exact hv
  · simp only [hst, if_false]; exact h t

theorem ConstsShown.later {B : Machine F} {e : YExpr F} {H H' : Mem F} (h : ConstsShown B e H)
    (hp : H <+: H') : ConstsShown B e H' := fun v τ ts ho => ShowsV.stable hp (h v τ ts ho)

theorem ConstsShown.child {B : Machine F} {h : Yarr.Head F} {ts : List (YExpr F)} {t : YExpr F} {H : Mem F}
    (hc : ConstsShown B (node h ts) H) (ht : t ∈ ts) : ConstsShown B t H :=
  fun v τ us ho => hc v τ us (.child ht ho)

theorem Marked.child {h : Yarr.Head F} {ts : List (YExpr F)} {t : YExpr F} (hm : Marked (node h ts))
    (ht : t ∈ ts) : Marked t :=
  fun o f g => ⟨fun ho => (hm o f g).1 (.child ht ho), fun ho => (hm o f g).2 (.child ht ho)⟩

/-- What is shown about every program: its execution leaves old buffers alone and has the value `evalI`; if
its root is a temporary, the result is the only reference to a new buffer. -/
def Good (B : Machine F) (J : YExt F) (e : YExpr F) : Prop :=
  ∀ H env yenv, ConstsShown B e H → EnvShows H env yenv →
    Sim ShowsV H (exec B J e env) (evalI J e yenv) ∧ (isTemp e.head = true → FreshAt H (exec B J e env H))

theorem sim_children {B : Machine F} {J : YExt F} {h : Yarr.Head F} {ts : List (YExpr F)}
    (ih : ∀ t ∈ ts, Good B J t) {H : Mem F} {env : Env HVal} {yenv : Env (YVal F)}
    (hc : ConstsShown B (node h ts) H) (he : EnvShows H env yenv) :
    Sim (fun H' => List.Forall₂ (ShowsV H')) H (M.seq ((ts.map (exec B J)).map (· env)))
      (mapOpt (fun f => f yenv) (ts.map (evalI J))) := by
  have h1 : List.Forall₂ (fun m o => ∀ H', H <+: H' → Sim ShowsV H' m o) ((ts.map (exec B J)).map (· env))
      ((ts.map (evalI J)).map (· yenv)) := by
    simp only [List.map_map, List.forall₂_map_left_iff, List.forall₂_map_right_iff]
    exact List.forall₂_same.2 (fun t ht H' hp =>
      (ih t ht H' env yenv ((hc.child ht).later hp) (he.later hp)).1)
  have h2 := Sim.seq ShowsV.stable h1
  rwa [mapOpt_map] at h2

/-- Nodes whose sub-terms are just evaluated. -/
theorem good_strict {B : Machine F} {J : YExt F} (hB : B.Lawful J) {h : Yarr.Head F} {ts : List (YExpr F)}
    (ih : ∀ t ∈ ts, Good B J t) (hs : strictHead h = true)
    (e1 : ∀ env, denM B J h (ts.map (exec B J)) env =
      (M.seq ((ts.map (exec B J)).map (· env))).bind (step B J h))
    (e2 : ∀ yenv, denI J h (ts.map (evalI J)) yenv = Yarr.den J h (ts.map (evalI J)) yenv) :
    Good B J (node h ts) := by
  intro H env yenv hc he
  have h1 := sim_children ih hc he
  rw [exec_node, evalI_node, e1, e2, den_strict J hs]
  refine ⟨Sim.bind h1 (fun H' vs ys _ hv => sim_step hB hv), fun ht => ?_⟩
  exact FreshAt.bind h1.1 (fun vs _ => fresh_step ht)

/-- Nodes with a wrong number of sub-terms. -/
theorem good_arity {B : Machine F} {J : YExt F} (hB : B.Lawful J) {h : Yarr.Head F} {ts : List (YExpr F)}
    (ih : ∀ t ∈ ts, Good B J t) (ht : isTemp h = false)
    (e1 : ∀ env, denM B J h (ts.map (exec B J)) env =
      (M.seq ((ts.map (exec B J)).map (· env))).bind (step B J h))
    (e2 : ∀ yenv, denI J h (ts.map (evalI J)) yenv = none)
    (hd : ∀ ys : List (YVal F), ys.length = ts.length →
      Yarr.den J h (ys.map (fun y _ => some y)) (fun _ => none) = none) : Good B J (node h ts) := by
  intro H env yenv hc he
  have h1 := Sim.bind (sim_children ih hc he) (fun H' vs ys _ hv => sim_step (h := h) hB hv)
  rw [exec_node, evalI_node, e1, e2]
  refine ⟨?_, fun ht' => by rw [show isTemp h = true from ht'] at ht; cases ht⟩
  convert h1 using 1
  cases hm : mapOpt (fun f => f yenv) (ts.map (evalI J)) with
  | none => rfl
  | some ys =>
    have := mapOpt_length hm
    rw [Option.bind_some, hd ys (by simpa using this)]

theorem good {B : Machine F} {J : YExt F} (hB : B.Lawful J) :
    ∀ e : YExpr F, Marked e → Good B J e := by
  refine Term.ind (fun h ts ih hm => ?_)
  have ih' : ∀ t ∈ ts, Good B J t := fun t ht => ih t ht (hm.child ht)
  cases h with
  | const v τ =>
    intro H env yenv hc he
    rw [exec_node, evalI_node]
    exact ⟨Sim.ret (hc v τ ts (.refl _)), fun ht => nomatch ht⟩
  | var v τ =>
    intro H env yenv hc he
    rw [exec_node, evalI_node]
    exact ⟨Sim.ofOpt (he _), fun ht => nomatch ht⟩
  | letv v =>
    rcases ts with _ | ⟨t1, _ | ⟨t2, _ | ⟨t3, ts⟩⟩⟩
    case cons.cons.nil =>
      intro H env yenv hc he
      rw [exec_node, evalI_node]
      refine ⟨?_, fun ht => nomatch ht⟩
      refine Sim.bind (ih' t1 (by simp) H env yenv (hc.child (by simp)) he).1 (fun H1 x y hp1 hx => ?_)
      have := Sim.bind (S := ShowsV) (f := fun x' => exec B J t2 (env.set (.var v) (some x')))
        (g := fun y => evalI J t2 (yenv.set (.var v) (some y))) (sim_boundVal B hx) (fun H2 x' y' hp2 hx' =>
          (ih' t2 (by simp) H2 _ _ ((hc.child (by simp)).later (hp1.trans hp2))
            ((he.later (hp1.trans hp2)).set _ hx')).1)
      exact this
    all_goals
      refine good_arity hB ih' rfl (fun _ => rfl) (fun _ => rfl) (fun ys hl => ?_)
      rcases ys with _ | ⟨y1, _ | ⟨y2, _ | ⟨y3, ys⟩⟩⟩ <;> first | rfl | simp at hl
  | fold c a =>
    rcases ts with _ | ⟨t1, _ | ⟨t2, _ | ⟨t3, _ | ⟨t4, ts⟩⟩⟩⟩
    case cons.cons.cons.nil =>
      intro H env yenv hc he
      rw [exec_node, evalI_node]
      refine ⟨?_, fun ht => nomatch ht⟩
      -- the accumulator is evaluated first, then the size
      have e : denI J (.fold c a) [evalI J t1, evalI J t2, evalI J t3] yenv =
          (evalI J t2 yenv).bind fun x => (evalI J t1 yenv).bind fun k => (some k).bind fun k =>
          (k.asArr.bind asSize).bind fun k => loopOpt (fun acc (i : Nat) =>
            (some (NArr.scalar (.i (i : Int)) : A F)).bind fun ri =>
            evalI J t3 ((yenv.set (.var a) (some acc)).set (.var c) (some (.arr ri)))) x (List.range k.toNat) := by
        show (((evalI J t1 yenv).bind YVal.asArr).bind asSize).bind _ = _
        cases evalI J t1 yenv with
        | none => cases evalI J t2 yenv <;> rfl
        | some k =>
          simp only [Option.bind_some]
          cases k.asArr.bind asSize with
          | none => cases evalI J t2 yenv <;> rfl
          | some k => rfl
      show Sim ShowsV H _ (denI J (.fold c a) [evalI J t1, evalI J t2, evalI J t3] yenv)
      rw [e]
      refine Sim.bind (ih' t2 (by simp) H env yenv (hc.child (by simp)) he).1 (fun H1 x y hp1 hx => ?_)
      refine Sim.bind (ih' t1 (by simp) H1 env yenv ((hc.child (by simp)).later hp1) (he.later hp1)).1
        (fun H2 k k' hp2 hk => ?_)
      refine Sim.bind (sim_load hk) ?_
      rintro H3 k1 _ hp3 rfl
      refine Sim.bind (R := fun _ m n => m = n) (Sim.ofOpt ?_) ?_
      · cases k1.asArr.bind asSize
        · trivial
        · exact rfl
      · rintro H4 m _ hp4 rfl
        have hp := hp1.trans (hp2.trans (hp3.trans hp4))
        refine Sim.loop (H₀ := H) (fun H5 acc accV i hp5 hacc => ?_) _ H4 hp
          (ShowsV.stable (hp2.trans (hp3.trans hp4)) hx)
        refine Sim.bind (sim_alloc _) (fun H6 ri ra hp6 hri => ?_)
        have hp' := hp5.trans hp6
        exact (ih' t3 (by simp) H6 _ _ ((hc.child (by simp)).later hp') (((he.later hp').set _
          (ShowsV.stable hp6 hacc)).set _ (showsV_arr.2 ⟨ra, rfl, hri⟩))).1
    all_goals
      refine good_arity hB ih' rfl (fun _ => rfl) (fun _ => rfl) (fun ys hl => ?_)
      rcases ys with _ | ⟨y1, _ | ⟨y2, _ | ⟨y3, _ | ⟨y4, ys⟩⟩⟩⟩ <;> first | rfl | simp at hl
  | reduce x y axis =>
    rcases ts with _ | ⟨t1, _ | ⟨t2, _ | ⟨t3, _ | ⟨t4, ts⟩⟩⟩⟩
    case cons.cons.cons.nil =>
      intro H env yenv hc he
      rw [exec_node, evalI_node]
      refine ⟨?_, fun ht => nomatch ht⟩
      refine Sim.bind (ih' t1 (by simp) H env yenv (hc.child (by simp)) he).1 (fun H1 x y hp1 hx => ?_)
      refine Sim.bind (ih' t3 (by simp) H1 env yenv ((hc.child (by simp)).later hp1) (he.later hp1)).1
        (fun H2 k k' hp2 hk => ?_)
      refine sim_reduce (fun H3 p q y z hp3 hpy hqz => ?_) (ShowsV.stable hp2 hx) hk
      have hp := hp1.trans (hp2.trans hp3)
      exact (ih' t2 (by simp) H3 _ _ ((hc.child (by simp)).later hp) (((he.later hp).set _ hpy).set _ hqz)).1
    all_goals
      refine good_arity hB ih' rfl (fun _ => rfl) (fun _ => rfl) (fun ys hl => ?_)
      rcases ys with _ | ⟨y1, _ | ⟨y2, _ | ⟨y3, _ | ⟨y4, ys⟩⟩⟩⟩ <;> first | rfl | simp at hl
  | tuple =>
    intro H env yenv hc he
    have h1 := sim_children ih' hc he
    rw [exec_node, evalI_node]
    refine ⟨?_, fun ht => nomatch ht⟩
    show Sim ShowsV H _ (Yarr.den J .tuple (ts.map (evalI J)) yenv)
    rw [den_strict J rfl]
    refine Sim.bind h1 (fun H' vs ys _ hv => Sim.ofOpt ?_)
    have h2 : OptRel (List.Forall₂ (Shows H')) (mapOpt HVal.asRef vs) (mapOpt YVal.asArr ys) := by
      clear h1
      induction hv with
      | nil => exact .nil
      | cons h1 h2 ih2 =>
        have h3 := showsV_asRef h1
        simp only [mapOpt]
        revert h3 ih2
        generalize HVal.asRef _ = p, YVal.asArr _ = q, mapOpt HVal.asRef _ = p', mapOpt YVal.asArr _ = q'
        cases p <;> cases q <;> cases p' <;> cases q' <;> intro ih2 h3 <;>
          first | trivial | exact h3.elim | exact ih2.elim | exact .cons h3 ih2
    have h3 : Yarr.den J .tuple (ys.map (fun y _ => some y)) (fun _ => none) =
        (mapOpt YVal.asArr ys).bind fun as => some (.tup as) := by
      show (arrsOf _).bind _ = _
      unfold arrsOf
      rw [List.map_map, mapOpt_map]
      rfl
    rw [h3]
    revert h2
    generalize mapOpt HVal.asRef vs = p, mapOpt YVal.asArr ys = q
    cases p <;> cases q <;> intro h2 <;>
      first | trivial | exact h2.elim | exact showsV_tup.2 ⟨_, rfl, h2⟩
  | untuple i k =>
    rcases ts with _ | ⟨t1, _ | ⟨t2, ts⟩⟩
    case cons.nil =>
      intro H env yenv hc he
      rw [exec_node, evalI_node]
      refine ⟨?_, fun ht => nomatch ht⟩
      refine Sim.bind (ih' t1 (by simp) H env yenv (hc.child (by simp)) he).1 (fun H1 v y hp1 hv =>
        Sim.ofOpt ?_)
      cases v with
      | arr r =>
        obtain ⟨a, rfl, _⟩ := showsV_arr.1 hv
        trivial
      | tup rs =>
        obtain ⟨as, rfl, ha⟩ := showsV_tup.1 hv
        show OptRel (ShowsV H1) ((rs[i]?).map .arr) ((as[i]?).map .arr)
        clear hv
        induction ha generalizing i with
        | nil => trivial
        | cons h1 _ ih2 =>
          cases i with
          | zero => exact showsV_arr.2 ⟨_, rfl, h1⟩
          | succ i =>
            simp only [List.getElem?_cons_succ]
            exact ih2 i (by
              intro o f g
              exact ⟨fun ho => (hm o f g).1 (by cases ho with | child hmem hoc => exact .child hmem hoc),
                fun ho => (hm o f g).2 (by cases ho with | child hmem hoc => exact .child hmem hoc)⟩)
              (by intro v τ us ho; exact hc v τ us (by cases ho with | child hmem hoc => exact .child hmem hoc))
    all_goals
      refine good_arity hB ih' rfl (fun _ => rfl) (fun _ => rfl) (fun ys hl => ?_)
      rcases ys with _ | ⟨y1, _ | ⟨y2, ys⟩⟩ <;> first | rfl | simp at hl
  | elem o ip =>
    by_cases h0 : ∃ f g, ip = some 0 ∧ ts = [f, g]
    · obtain ⟨f, g, rfl, rfl⟩ := h0
      have hf := (hm o f g).1 (.refl _)
      intro H env yenv hc he
      have sf := ih' f (by simp) H env yenv (hc.child (by simp)) he
      have key := sim_inplace (call := fun x y => callOut o x y x)
        (res := fun y1 y2 => y1.asArr.bind fun a => y2.asArr.bind fun b =>
          (NArr.zipAll (applyOp o) [a, b]).bind fun r => (writeOut a r).bind fun w => some (.arr w))
        sf.1 (sf.2 hf)
        (fun H1 hp => (ih' g (by simp) H1 env yenv ((hc.child (by simp)).later hp) (he.later hp)).1)
        (fun H2 r c v2 y2 hp ho hr hv => callOut_spec hp (showsV_arr.2 ⟨c, rfl, hr⟩) hv hr ho)
      rw [exec_node, evalI_node]
      refine ⟨?_, fun _ => key.2⟩
      have e : denI J (.elem o (some 0)) ([f, g].map (evalI J)) yenv = ((evalI J f yenv).bind fun y1 =>
          (evalI J g yenv).bind fun y2 => y1.asArr.bind fun a => y2.asArr.bind fun b =>
          (NArr.zipAll (applyOp o) [a, b]).bind fun r => (writeOut a r).bind fun w => some (.arr w)) := by
        simp only [denI, List.map_cons, List.map_nil]
        cases evalI J f yenv with
        | none => rfl
        | some y1 => cases evalI J g yenv <;> cases y1 <;> rfl
      rw [e]
      exact key.1
    · by_cases h1 : ∃ f g, ip = some 1 ∧ ts = [f, g]
      · obtain ⟨f, g, rfl, rfl⟩ := h1
        have hg := (hm o f g).2 (.refl _)
        intro H env yenv hc he
        have sg := ih' g (by simp) H env yenv (hc.child (by simp)) he
        have key := sim_inplace (call := fun y x => callOut o x y y)
          (res := fun y2 y1 => y1.asArr.bind fun a => y2.asArr.bind fun b =>
            (NArr.zipAll (applyOp o) [a, b]).bind fun r =>
              ((YVal.arr b).asArr.bind fun b => writeOut b r).bind fun w => some (.arr w))
          sg.1 (sg.2 hg)
          (fun H1 hp => (ih' f (by simp) H1 env yenv ((hc.child (by simp)).later hp) (he.later hp)).1)
          (fun H2 r c v2 y2 hp ho hr hv => callOut_spec hp hv (showsV_arr.2 ⟨c, rfl, hr⟩) hr ho)
        rw [exec_node, evalI_node]
        refine ⟨?_, fun _ => key.2⟩
        have e : denI J (.elem o (some 1)) ([f, g].map (evalI J)) yenv = ((evalI J g yenv).bind fun y2 =>
            (evalI J f yenv).bind fun y1 => y1.asArr.bind fun a => y2.asArr.bind fun b =>
            (NArr.zipAll (applyOp o) [a, b]).bind fun r =>
              ((YVal.arr b).asArr.bind fun b => writeOut b r).bind fun w => some (.arr w)) := by
          simp only [denI, List.map_cons, List.map_nil]
          cases evalI J g yenv with
          | none =>
            cases evalI J f yenv with
            | none => rfl
            | some y1 => cases y1 <;> rfl
          | some y2 => cases evalI J f yenv <;> rfl
        rw [e]
        exact key.1
      · refine good_strict hB ih' rfl (fun _ => ?_) (fun _ => ?_)
        · rcases ip with _ | _ | _ | n
          · rfl
          · rcases ts with _ | ⟨t1, _ | ⟨t2, _ | ⟨t3, ts⟩⟩⟩ <;> first | rfl | exact absurd ⟨_, _, rfl, rfl⟩ h0
          · rcases ts with _ | ⟨t1, _ | ⟨t2, _ | ⟨t3, ts⟩⟩⟩ <;> first | rfl | exact absurd ⟨_, _, rfl, rfl⟩ h1
          · rfl
        · rcases ip with _ | _ | _ | n
          · rfl
          · rcases ts with _ | ⟨t1, _ | ⟨t2, _ | ⟨t3, ts⟩⟩⟩ <;> first | rfl | exact absurd ⟨_, _, rfl, rfl⟩ h0
          · rcases ts with _ | ⟨t1, _ | ⟨t2, _ | ⟨t3, ts⟩⟩⟩ <;> first | rfl | exact absurd ⟨_, _, rfl, rfl⟩ h1
          · rfl
  | _ => exact good_strict hB ih' rfl (fun _ => rfl) (fun _ => rfl)

end
end Verif.Backend
