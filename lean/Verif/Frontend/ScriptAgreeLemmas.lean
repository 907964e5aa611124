import Verif.Frontend.ScriptConforms

/-! Objects that stand for a value, if they are defined at all. -/

set_option linter.unusedSectionVars false

namespace Verif.Frontend
open Verif.Phi Verif.Term Verif.Midend Verif.Codegen Verif.Props
variable {F : Type} [FloatOps F] [DecidableEq F] {I : Ext F} {Γ Γ' : TCtx} {c c' : Nat}

/-- If the expression has a value, it is `v`. -/
def AgreeE (I : Ext F) (env : Env (D F)) (l : Layout) (e : Expr F) (v : PVal F) : Prop :=
  ∀ d, run I e env = some d → view l d = some v

/-- If an expression for a size has a value, it is the size. -/
def Dims (I : Ext F) (env : Env (D F)) (e : Expr F) (v : PVal F) : Prop :=
  ∀ (k : Nat) (n : Int) (m : Nat), run I (dimExpr e k) env = some (.int n) → axis k v = some m → n.toNat = m

mutual
def Agree (I : Ext F) (env : Env (D F)) : Obj F → PVal F → Prop
  | .scalar a, v => AgreeE I env .atom (wrap a) v
  | .vec e l, v => AgreeE I env (.vec l) e v ∧ Dims I env e v
  | .struct k fs, .record k' l => k = k' ∧ AgreeF I env fs l
  | _, _ => False
def AgreeF (I : Ext F) (env : Env (D F)) : Fields F → List (String × PVal F) → Prop
  | .nil, [] => True
  | .cons n o rest, (m, v) :: l => n = m ∧ Agree I env o v ∧ AgreeF I env rest l
  | _, _ => False
end

mutual
theorem Agree.value {env : Env (D F)} : ∀ {o : Obj F} {v w : PVal F}, Agree I env o v → value I env o = some w → w = v
  | .scalar a, v, w, h, hw => by
    simp only [Agree] at h
    simp only [Frontend.value, Option.bind_eq_some_iff] at hw
    obtain ⟨d, h1, h2⟩ := hw
    exact Option.some.inj (h2.symm.trans (h d h1))
  | .vec e l, v, w, h, hw => by
    simp only [Agree] at h
    simp only [Frontend.value, Option.bind_eq_some_iff] at hw
    obtain ⟨d, h1, h2⟩ := hw
    exact Option.some.inj (h2.symm.trans (h.1 d h1))
  | .raw _ _, v, w, h, hw => by simp only [Agree] at h
  | .struct k fs, .record k' l, w, h, hw => by
    simp only [Agree] at h
    obtain ⟨rfl, h⟩ := h
    simp only [Frontend.value, Option.map_eq_some_iff] at hw
    obtain ⟨l', h1, rfl⟩ := hw
    rw [AgreeF.value h h1]
  | .struct k fs, .sc _, w, h, hw => by simp only [Agree] at h
  | .struct k fs, .arr _, w, h, hw => by simp only [Agree] at h
theorem AgreeF.value {env : Env (D F)} : ∀ {o : Fields F} {v w : List (String × PVal F)}, AgreeF I env o v → valueFields I env o = some w → w = v
  | .nil, [], w, _, hw => by simpa [valueFields] using hw.symm
  | .nil, _ :: _, _, h, _ => by simp only [AgreeF] at h
  | .cons _ _ _, [], _, h, _ => by simp only [AgreeF] at h
  | .cons n o rest, (m, v) :: l, w, h, hw => by
    simp only [AgreeF] at h
    obtain ⟨rfl, h1, h2⟩ := h
    simp only [valueFields, Option.bind_eq_some_iff, Option.map_eq_some_iff] at hw
    obtain ⟨x, h3, xs, h4, rfl⟩ := hw
    rw [Agree.value h1 h3, AgreeF.value h2 h4]
end

/-! ### Other environments -/

theorem AgreeE.congr {env env' : Env (D F)} {e : Expr F} {τ : Ty} {l : Layout} {v : PVal F} (hs : Sane I Γ c e τ)
    (he : ∀ s, Γ s ≠ none → env' s = env s) (h : AgreeE I env l e v) : AgreeE I env' l e v := by
  intro d hd
  rw [hs.run_congr he] at hd
  exact h d hd

theorem Dims.congr {env env' : Env (D F)} {e : Expr F} {τ : Ty} {v : PVal F} (hs : Sane I Γ c e τ)
    (he : ∀ s, Γ s ≠ none → env' s = env s) (h : Dims I env e v) : Dims I env' e v := by
  intro k n m hn
  rw [run_agree (scoped_dimExpr hs.fine.scoping k) (env' := env) (fun s hs' =>
    he s (hs.fine.fv_dom s (fv_dimExpr hs.fine.scoping k hs')))] at hn
  exact h k n m hn

mutual
theorem Agree.congr {env env' : Env (D F)} (he : ∀ s, Γ s ≠ none → env' s = env s) : ∀ {t : UTy} {o : Obj F} {v : PVal F}, Has I Γ c t o →
    Agree I env o v → Agree I env' o v
  | .sc _, .scalar _, _, h, ha => by
    simp only [Has] at h
    simp only [Agree] at ha ⊢
    exact ha.congr h he
  | .arr _, .vec _ _, _, h, ha => by
    simp only [Has] at h
    simp only [Agree] at ha ⊢
    exact ⟨ha.1.congr h.2 he, ha.2.congr h.2 he⟩
  | .record _ _, .struct _ _, .record _ _, h, ha => by
    simp only [Has] at h
    simp only [Agree] at ha ⊢
    exact ⟨ha.1, AgreeF.congr he h.2 ha.2⟩
  | .record _ _, .struct _ _, .sc _, _, ha | .record _ _, .struct _ _, .arr _, _, ha => by simp only [Agree] at ha
  | .sc _, .vec _ _, _, h, _ | .sc _, .raw _ _, _, h, _ | .sc _, .struct _ _, _, h, _ | .arr _, .scalar _, _, h, _ | .arr _, .raw _ _, _, h, _
  | .arr _, .struct _ _, _, h, _ | .record _ _, .scalar _, _, h, _ | .record _ _, .vec _ _, _, h, _ | .record _ _, .raw _ _, _, h, _ => by
    simp only [Has] at h
theorem AgreeF.congr {env env' : Env (D F)} (he : ∀ s, Γ s ≠ none → env' s = env s) : ∀ {t : UFields} {o : Fields F} {v : List (String × PVal F)},
    HasF I Γ c t o → AgreeF I env o v → AgreeF I env' o v
  | .nil, .nil, [], _, _ => by simp only [AgreeF]
  | .cons _ _ _, .cons _ _ _, (_, _) :: _, h, ha => by
    simp only [HasF] at h
    simp only [AgreeF] at ha ⊢
    exact ⟨ha.1, Agree.congr he h.2.1 ha.2.1, AgreeF.congr he h.2.2 ha.2.2⟩
  | .nil, .nil, _ :: _, _, ha | .cons _ _ _, .cons _ _ _, [], _, ha => by simp only [AgreeF] at ha
  | .nil, .cons _ _ _, _, h, _ | .cons _ _ _, .nil, _, h, _ => by simp only [HasF] at h
end

theorem agrees_congr {env env' : Env (D F)} (he : ∀ s, Γ s ≠ none → env' s = env s) {ts : List UTy} {os : List (Obj F)} {vs : List (PVal F)}
    (h : List.Forall₂ (Has I Γ c) ts os) (ha : List.Forall₂ (Agree I env) os vs) : List.Forall₂ (Agree I env') os vs := by
  induction h generalizing vs with
  | nil => cases ha; exact .nil
  | cons h1 _ ih =>
    cases ha with
    | cons h2 h3 => exact .cons (Agree.congr he h1 h2) (ih h3)

/-! ### Packing and unpacking -/

theorem dims_at {env : Env (D F)} {l : Layout} {e : Expr F} {v : PVal F} (h : AgreeE I env l e v) {k : Nat} (hk : dimExpr e k = dim e k)
    {n : Int} {m : Nat} (hn : run I (dimExpr e k) env = some (.int n)) (hm : axis k v = some m) : n.toNat = m := by
  rw [hk, run_dim_node, dimOf, Option.bind_eq_some_iff] at hn
  obtain ⟨j, h1, h2⟩ := hn
  obtain ⟨d, h3, h4⟩ := Option.bind_eq_some_iff.1 h1
  have := (axis_dim k v (h d h3) hm).symm.trans h4
  cases this
  cases h2
  simp

theorem dims_other {env : Env (D F)} {l : Layout} {h : Phi.Head F} {ts : List (Expr F)} {v : PVal F} (ha : AgreeE I env l (node h ts) v)
    (h1 : h ≠ .get) (h2 : ∀ j, h ≠ .vec j) : Dims I env (node h ts) v :=
  fun _ _ _ hn hm => dims_at ha (dimExpr_other (fun _ _ h => h1 h.1) (fun j _ _ h => h2 j h.1)) hn hm

mutual
theorem agree_unpack {env : Env (D F)} : ∀ (l : Layout), l.ok = true → ∀ {e : Expr F} {v : PVal F}, Conforms l v → AgreeE I env l e v →
    Dims I env e v → Agree I env (unpack l e) v
  | .atom, _, e, v, _, h, _ => by simpa only [unpack, Agree, wrap] using h
  | .vec sub, _, e, v, _, h, hd => by simpa only [unpack, Agree] using ⟨h, hd⟩
  | .struct k subs, hl, e, .record k' vs, hc, h, hd => by
    simp only [Conforms] at hc
    obtain ⟨rfl, hc⟩ := hc
    simp only [Layout.ok, Bool.and_eq_true] at hl
    simp only [unpack, Agree, true_and]
    exact agree_unpackFields (k := k) subs hl.2 (i := 0) (n := _) (by simp) hc h hd
  | .struct k subs, _, e, .sc _, hc, _, _ | .struct k subs, _, e, .arr _, hc, _, _ => by simp only [Conforms] at hc
theorem agree_unpackFields {env : Env (D F)} {k : RecKind} : ∀ (l : LFields), l.ok = true → ∀ {e : Expr F} {i n : Nat} {vs : List (String × PVal F)},
    i + l.length = n → ConformsF l vs → AgreeE I env (.struct k l) (sndIter i e) (.record k vs) → Dims I env (sndIter i e) (.record k vs) →
    AgreeF I env (unpackFields l e i n) vs
  | .nil, _, _, _, _, [], _, _, _, _ => by simp only [unpackFields, AgreeF]
  | .nil, _, _, _, _, _ :: _, _, h, _, _ => by simp only [ConformsF] at h
  | .cons _ _ _, _, _, _, _, [], _, h, _, _ => by simp only [ConformsF] at h
  | .cons m l .nil, hl, e, i, n, (m', v) :: vs, hn, hc, h, hd => by
    simp only [ConformsF] at hc
    simp only [LFields.ok, Bool.and_eq_true] at hl
    simp only [LFields.length] at hn
    cases vs with
    | cons => simp only [ConformsF, and_false] at hc
    | nil =>
      simp only [unpackFields, AgreeF, and_true]
      refine ⟨hc.1, ?_⟩
      rw [project, if_neg (by omega)]
      refine agree_unpack l hl.1 hc.2.1 (fun d hd' => ?_) (fun k n m hn hm => hd k n m hn (by rw [axis]; exact hm))
      have := h d hd'
      simp only [view, viewFields, Option.map_map, Option.map_eq_some_iff, Function.comp, PVal.record.injEq, true_and, List.cons.injEq,
        Prod.mk.injEq, and_true] at this
      obtain ⟨x, hx, _, rfl⟩ := this
      exact hx
  | .cons m l (.cons m1 l1 rest), hl, e, i, n, (m', v) :: vs, hn, hc, h, hd => by
    have hl1 : l.ok = true := by simp only [LFields.ok, Bool.and_eq_true] at hl; exact hl.1
    have hl2 : (LFields.cons m1 l1 rest).ok = true := by rw [LFields.ok, Bool.and_eq_true] at hl; exact hl.2
    rw [ConformsF] at hc
    have key : ∀ d, run I (sndIter i e) env = some d → ∃ a b, d = .pair a b ∧ view l a = some v ∧ viewFields (.cons m1 l1 rest) b = some vs := by
      intro d hd'
      have := h d hd'
      cases d with
      | pair a b =>
        rw [view, viewFields] at this
        simp only [Option.map_eq_some_iff, Option.bind_eq_some_iff, PVal.record.injEq, true_and] at this
        obtain ⟨_, ⟨x, h1, xs, h2, rfl⟩, h3⟩ := this
        cases h3
        exact ⟨a, b, rfl, h1, h2⟩
      | _ => simp [view, viewFields] at this
    have h1 : AgreeE I env l (Phi.fst (sndIter i e)) v := by
      intro d hd'
      rw [run_fst] at hd'
      cases hr : run I (sndIter i e) env with
      | none => rw [hr] at hd'; cases hd'
      | some d' =>
        obtain ⟨a, b, rfl, h3, h4⟩ := key d' hr
        rw [hr] at hd'
        cases hd'
        exact h3
    have h2 : AgreeE I env (.struct k (.cons m1 l1 rest)) (sndIter (i + 1) e) (.record k vs) := by
      intro d hd'
      rw [sndIter, run_snd] at hd'
      cases hr : run I (sndIter i e) env with
      | none => rw [hr] at hd'; cases hd'
      | some d' =>
        obtain ⟨a, b, rfl, h3, h4⟩ := key d' hr
        rw [hr] at hd'
        cases hd'
        rw [view, h4]; rfl
    rw [unpackFields, AgreeF, project, if_pos (by simp only [LFields.length] at hn; omega)]
    refine ⟨hc.1, agree_unpack l hl1 hc.2.1 h1 (dims_other h1 (by simp) (by simp)), ?_⟩
    exact agree_unpackFields (.cons m1 l1 rest) hl2 (by rw [LFields.length] at hn; omega) hc.2.2 h2 (dims_other h2 (by simp) (by simp))
end

mutual
theorem agree_pack {env : Env (D F)} : ∀ {t : UTy} {o : Obj F} {v : PVal F} {e : Expr F}, t.layout.ok = true → Has I Γ c t o → Agree I env o v →
    Frontend.pack t.layout o = some e → AgreeE I env t.layout e v
  | .sc _, .scalar a, v, e, _, _, h, hp => by
    simp only [Frontend.pack, UTy.layout, Option.some.injEq] at hp
    subst hp
    simpa only [Agree, UTy.layout] using h
  | .arr t, .vec x l, v, e, _, hh, h, hp => by
    simp only [Frontend.pack, UTy.layout, Option.some.injEq] at hp
    subst hp
    simp only [Has] at hh
    simp only [Agree] at h
    rw [UTy.layout, ← hh.1]
    exact h.1
  | .record _ fs, .struct k os, .record k' l, e, ht, hh, h, hp => by
    simp only [Has] at hh
    obtain ⟨rfl, hh⟩ := hh
    simp only [UTy.layout, Layout.ok, Bool.and_eq_true] at ht
    obtain ⟨h4, h5, h6⟩ := HasF.build ht.2 hh
    simp only [Agree] at h
    obtain ⟨rfl, h⟩ := h
    have hne : fs ≠ .nil := by rintro rfl; exact okNames_ne ht.1 rfl
    have hpos : ∃ es, packPos fs.layout os.toList = some es ∧ consAll es = some e := by
      rw [UTy.layout] at hp
      cases k with
      | positional =>
        simp only [Frontend.pack, Option.bind_eq_some_iff] at hp
        exact hp
      | dict =>
        rw [Frontend.pack, packLab_pos _ os _ h4 (fun n o hm => getName_of (by simp) (by rw [h6]; exact ht.1) hm)] at hp
        exact Option.bind_eq_some_iff.1 hp
      | data cl =>
        rw [Frontend.pack, packLab_pos _ os _ h4 (fun n o hm => getName_of (by simp) (by rw [h6]; exact ht.1) hm)] at hp
        exact Option.bind_eq_some_iff.1 hp
    obtain ⟨es, h1, h2⟩ := hpos
    intro d hd
    rw [UTy.layout, view, agree_packPos ht.2 hne hh h h1 h2 d hd]
    rfl
  | .record _ _, .struct _ _, .sc _, _, _, _, ha, _ | .record _ _, .struct _ _, .arr _, _, _, _, ha, _ => by simp only [Agree] at ha
  | .sc _, .vec _ _, _, _, _, h, _, _ | .sc _, .raw _ _, _, _, _, h, _, _ | .sc _, .struct _ _, _, _, _, h, _, _
  | .arr _, .scalar _, _, _, _, h, _, _ | .arr _, .raw _ _, _, _, _, h, _, _ | .arr _, .struct _ _, _, _, _, h, _, _
  | .record _ _, .scalar _, _, _, _, h, _, _ | .record _ _, .vec _ _, _, _, _, h, _, _ | .record _ _, .raw _ _, _, _, _, h, _, _ => by
    simp only [Has] at h
theorem agree_packPos {env : Env (D F)} : ∀ {t : UFields} {o : Fields F} {l : List (String × PVal F)} {es : List (Expr F)} {p : Expr F},
    t.layout.ok = true → t ≠ .nil → HasF I Γ c t o → AgreeF I env o l → packPos t.layout o.toList = some es → consAll es = some p →
    ∀ d, run I p env = some d → viewFields t.layout d = some l
  | .nil, _, _, _, _, _, h, _, _, _, _ => absurd rfl h
  | .cons n t .nil, .cons n' o .nil, (m, v) :: [], es, p, ht, _, hh, h, hp, hc => by
    intro d hd
    simp only [HasF] at hh
    simp only [UFields.layout, LFields.ok, Bool.and_eq_true] at ht
    simp only [UFields.layout, Fields.toList, packPos, Option.bind_eq_some_iff, Option.map_eq_some_iff] at hp
    obtain ⟨x, hx, _, hxs, rfl⟩ := hp
    cases hxs
    cases hc
    simp only [AgreeF] at h
    rw [UFields.layout, UFields.layout, viewFields, agree_pack ht.1 hh.2.1 h.2.1 hx d hd, ← h.1, ← hh.1]
    rfl
  | .cons n t (.cons n2 t2 rest), .cons n' o os, (m, v) :: l, es, p, ht, _, hh, h, hp, hc => by
    intro d hd
    rw [HasF] at hh
    rw [UFields.layout, LFields.ok, Bool.and_eq_true] at ht
    rw [UFields.layout, Fields.toList, packPos] at hp
    obtain ⟨x, hx, hp⟩ := Option.bind_eq_some_iff.1 hp
    obtain ⟨xs, hxs, rfl⟩ := Option.map_eq_some_iff.1 hp
    rw [AgreeF] at h
    cases xs with
    | nil =>
      cases os with
      | nil => exact absurd hh.2.2 (by simp [HasF])
      | cons =>
        rw [UFields.layout, Fields.toList, packPos] at hxs
        obtain ⟨_, _, hxs⟩ := Option.bind_eq_some_iff.1 hxs
        obtain ⟨_, _, hxs⟩ := Option.map_eq_some_iff.1 hxs
        cases hxs
    | cons y ys =>
      have hc : (consAll (y :: ys)).map (Phi.cons x) = some p := by simpa only [consAll] using hc
      obtain ⟨q, hq, rfl⟩ := Option.map_eq_some_iff.1 hc
      rw [Frontend.run_cons, consOf] at hd
      obtain ⟨a, ha, hd⟩ := Option.bind_eq_some_iff.1 hd
      obtain ⟨b, hb, hd⟩ := Option.bind_eq_some_iff.1 hd
      cases hd
      rw [UFields.layout, UFields.layout, viewFields, agree_pack ht.1 hh.2.1 h.2.1 hx a ha, Option.bind_some, ← UFields.layout,
        agree_packPos ht.2 (by simp) hh.2.2 h.2.2 hxs hq b hb, ← h.1, ← hh.1]
      rfl
  | .cons _ _ .nil, .cons _ _ (.cons _ _ _), _, _, _, _, _, h, _, _, _ => by simp only [HasF] at h; exact h.2.2.elim
  | .cons _ _ .nil, .cons _ _ .nil, _ :: _ :: _, _, _, _, _, _, h, _, _ => by simp only [AgreeF] at h; exact h.2.2.elim
  | .cons _ _ _, .nil, _, _, _, _, _, h, _, _, _ => by simp only [HasF] at h
  | .cons _ _ _, .cons _ _ _, [], _, _, _, _, _, h, _, _ => by simp only [AgreeF] at h
end

/-! ### Constructs -/

theorem agree_op {env : Env (D F)} {o : ScalarOp} {es : List (Expr F)} {ss : List (Scal F)} {s : Scal F}
    (h : List.Forall₂ (fun e x => AgreeE I env .atom e (.sc x)) es ss) (ho : applyOp o ss = some s) : AgreeE I env .atom (node (.op o) es) (.sc s) := by
  intro d hd
  rw [run_node] at hd
  simp only [runDen, opOf, Option.bind_eq_some_iff, Option.some.injEq, List.map_map] at hd
  obtain ⟨ss', h1, s', h2, rfl⟩ := hd
  have : ss' = ss := by
    clear h2 ho
    induction h generalizing ss' with
    | nil => simpa [Phi.mapOpt] using h1.symm
    | cons h3 _ ih =>
      simp only [List.map_cons, Phi.mapOpt, Option.bind_eq_some_iff, Option.some.injEq, Function.comp] at h1
      obtain ⟨x, ⟨d, h4, h5⟩, xs, h6, rfl⟩ := h1
      have := h3 d h4
      cases d <;> simp [view, Val.asScal] at this h5
      rw [ih xs h6, ← h5, this]
  subst this
  rw [view, Option.some.inj (h2.symm.trans ho)]

theorem agree_method {env : Env (D F)} {o : PyOp} {a : Expr F} {b : ScalarLike F} {x y s : Scal F} (ha : AgreeE I env .atom a (.sc x))
    (hb : AgreeE I env .atom (wrap b) (.sc y)) (ho : applyPy o x y = some s) : AgreeE I env .atom (method o a b) (.sc s) := by
  cases o <;> simp only [applyPy] at ho
  case truediv =>
    obtain ⟨r, h1, h2⟩ := Option.bind_eq_some_iff.1 ho
    exact agree_op (.cons ha (.cons (agree_op (.cons hb .nil) h1) .nil)) h2
  all_goals first
    | exact agree_op (.cons ha (.cons hb .nil)) ho
    | exact agree_op (.cons hb (.cons ha .nil)) ho

theorem mapOpt_pointwise {α β : Type} {f : α → Option β} : ∀ {l : List α} {m : List β}, l.length = m.length →
    (∀ (j : Nat) a b, l[j]? = some a → m[j]? = some b → f a = some b) → Phi.mapOpt f l = some m
  | [], [], _, _ => rfl
  | [], _ :: _, h, _ => by simp at h
  | _ :: _, [], h, _ => by simp at h
  | a :: l, b :: m, h, H => by
    rw [Phi.mapOpt, H 0 a b rfl rfl, mapOpt_pointwise (l := l) (m := m) (by simpa using h) (fun j a' b' h1 h2 => H (j + 1) a' b' (by simpa using h1) (by simpa using h2))]
    rfl

theorem asInt_eq {d : D F} {n : Int} (h : d.asInt = some n) : d = .int n := by
  cases d with
  | sc s => cases s <;> simp [Val.asInt] at h; subst h; rfl
  | _ => simp [Val.asInt] at h

theorem asVec_eq {d : D F} {vs : List (D F)} (h : d.asVec = some vs) : d = .vec vs := by
  cases d <;> simp [Val.asVec] at h; subst h; rfl

theorem view_arr {l : Layout} {vs : List (D F)} {ws : List (PVal F)} (h : view (.vec l) (.vec vs) = some (.arr ws)) :
    Phi.mapOpt (view l) vs = some ws := by
  simp only [view, Option.map_eq_some_iff, PVal.arr.injEq] at h
  obtain ⟨_, h, rfl⟩ := h
  exact h

theorem agree_vec {env : Env (D F)} {i : Nat} {n b : Expr F} {l : Layout} {ws : List (PVal F)}
    (hcount : ∀ m, run I n env = some (.int m) → m.toNat = ws.length)
    (hbody : ∀ (j : Nat) w, ws[j]? = some w → AgreeE I (env.set (.idx i) (some (.int j))) l b w) :
    Agree I env (.vec (vec i n b) l) (.arr ws) := by
  have hE : AgreeE I env (.vec l) (vec i n b) (.arr ws) := by
    intro d hd
    rw [run_vec, vecOf] at hd
    simp only [Option.bind_eq_some_iff] at hd
    obtain ⟨m, ⟨dn, h1, h2⟩, vs, h3, h4⟩ := hd
    cases asInt_eq h2
    have hl := hcount m h1
    split at h4
    · cases h4
      rw [view, mapOpt_pointwise (m := ws), Option.map_some]
      · rw [mapOpt_length h3, List.length_range, hl]
      · intro j a w ha hw
        rw [mapOpt_getElem? h3] at ha
        obtain ⟨j', h5, h6⟩ := Option.bind_eq_some_iff.1 ha
        rw [List.getElem?_range (by rw [hl]; exact (List.getElem?_eq_some_iff.1 hw).1)] at h5
        cases h5
        exact hbody j w hw a h6
    · cases h4
  simp only [Agree]
  refine ⟨hE, fun k m' m hn hm => ?_⟩
  cases k with
  | zero =>
    rw [vec, dimExpr_vec] at hn
    simp only [axis, Option.some.injEq] at hm
    rw [← hm]
    exact hcount m' hn
  | succ k =>
    exact dims_at hE (dimExpr_other (fun _ _ h => by simp at h) (fun _ _ _ h => by simp at h)) hn hm

theorem loop_agree {α α' β γ : Type} {f : β → α → Option β} {g : γ → α' → Option γ} (R : β → γ → Prop) {S : α → α' → Prop} {l : List α} {m : List α'}
    (hS : List.Forall₂ S l m) (h : ∀ a a' b c b' c', S a a' → a' ∈ m → R b c → f b a = some b' → g c a' = some c' → R b' c') :
    ∀ {b b' : β} {c c' : γ}, R b c → loopOpt f b l = some b' → loopOpt g c m = some c' → R b' c' := by
  induction hS with
  | nil =>
    intro b b' c c' hR h1 h2
    cases h1
    cases h2
    exact hR
  | cons hs _ ih =>
    intro b b' c c' hR h1 h2
    simp only [loopOpt, Option.bind_eq_some_iff] at h1 h2
    obtain ⟨b1, h3, h4⟩ := h1
    obtain ⟨c1, h5, h6⟩ := h2
    exact ih (fun a a' b c b' c' hs hm => h a a' b c b' c' hs (by simp [hm])) (h _ _ _ _ _ _ hs (by simp) hR h3 h5) h4 h6

theorem agree_fold {env : Env (D F)} {x y : Nat} {n z b : Expr F} {l : Layout} {v0 v : PVal F} {N : Nat} {g : PVal F → Nat → Option (PVal F)}
    (hcount : ∀ m, run I n env = some (.int m) → m.toNat = N) (hz : AgreeE I env l z v0) (hc : Conforms l v0)
    (step : ∀ (k : Nat) (acc : D F) (v1 w : PVal F), view l acc = some v1 → Conforms l v1 → g v1 k = some w →
      Conforms l w ∧ AgreeE I ((env.set (.var y) (some acc)).set (.var x) (some (.int k))) l b w)
    (hloop : loopOpt g v0 (List.range N) = some v) : AgreeE I env l (Phi.fold x y n z b) v := by
  intro d hd
  rw [Phi.fold, run_node] at hd
  simp only [List.map_cons, List.map_nil, runDen, Phi.foldOf, Option.bind_eq_some_iff] at hd
  obtain ⟨m, ⟨dn, h1, h2⟩, a, h3, h4⟩ := hd
  cases asInt_eq h2
  rw [hcount m h1] at h4
  exact (loop_agree (fun d v => view l d = some v ∧ Conforms l v) (S := Eq) (List.forall₂_refl _) (fun k k' acc v1 acc' w hk _ hR hf hg => by
    cases hk
    obtain ⟨h5, h6⟩ := step k acc v1 w hR.1 hR.2 hg
    exact ⟨h6 acc' hf, h5⟩) ⟨hz a h3, hc⟩ h4 hloop).1

theorem loopOpt_index {α β : Type} {f : β → α → Option β} (l : List α) (b : β) :
    loopOpt (fun b (i : Nat) => (l[i]?).bind (f b)) b (List.range l.length) = loopOpt f b l := by
  have aux : ∀ (pre post : List α) (b : β), pre ++ post = l →
      loopOpt (fun b (i : Nat) => (l[i]?).bind (f b)) b (List.range' pre.length post.length) = loopOpt f b post := by
    intro pre post
    induction post generalizing pre with
    | nil => intro b _; rfl
    | cons a post ih =>
      intro b h
      rw [List.length_cons, List.range'_succ, loopOpt, loopOpt]
      have : l[pre.length]? = some a := by rw [← h]; simp
      rw [this, Option.bind_some]
      congr 1
      funext b'
      simpa using ih (pre ++ [a]) b' (by simpa using h)
  simpa [List.range_eq_range'] using aux [] l b rfl

theorem agree_reduce {env : Env (D F)} {x y : Nat} {e z b : Expr F} {l : Layout} {v0 v : PVal F} {ys : List (PVal F)} {g : PVal F → PVal F → Option (PVal F)}
    (he : AgreeE I env (.vec l) e (.arr ys)) (hz : AgreeE I env l z v0) (hc : Conforms l v0)
    (step : ∀ (acc u : D F) (v1 w1 w : PVal F), view l acc = some v1 → Conforms l v1 → w1 ∈ ys → view l u = some w1 → g v1 w1 = some w →
      Conforms l w ∧ AgreeE I ((env.set (.var x) (some acc)).set (.var y) (some u)) l b w)
    (hloop : loopOpt g v0 ys = some v) : AgreeE I env l (node (.reduce x y) [z, b, e]) v := by
  intro d hd
  rw [run_node] at hd
  simp only [List.map_cons, List.map_nil, runDen, Phi.reduceOf, Phi.mapOpt, Option.bind_eq_some_iff, Option.some.injEq] at hd
  obtain ⟨_, ⟨vs, ⟨de, h1, h2⟩, _, rfl, rfl⟩, h4⟩ := hd
  cases asVec_eq h2
  simp only [List.all_nil, if_true, Option.bind_eq_some_iff] at h4
  obtain ⟨a, h5, h6⟩ := h4
  have hrow : ∀ i, rowAt [vs] i = vs[i]? := by
    intro i
    simp only [rowAt, Phi.mapOpt]
    cases vs[i]? <;> rfl
  simp only [hrow] at h6
  rw [loopOpt_index] at h6
  have hys := view_arr (he _ h1)
  have hS : List.Forall₂ (fun d w => view l d = some w) vs ys := by
    clear h6 h1 hloop he step h2 hrow
    induction vs generalizing ys with
    | nil => cases hys; exact .nil
    | cons u us ih =>
      simp only [Phi.mapOpt, Option.bind_eq_some_iff, Option.some.injEq] at hys
      obtain ⟨w, h1, ws, h2, rfl⟩ := hys
      exact .cons h1 (ih h2)
  exact (loop_agree (fun d v => view l d = some v ∧ Conforms l v) hS (fun u w1 acc v1 acc' w hk hm hR hf hg => by
    obtain ⟨h7, h8⟩ := step acc u v1 w1 w hR.1 hR.2 hm hk hg
    exact ⟨h8 acc' hf, h7⟩) ⟨hz a h5, hc⟩ h6 hloop).1

theorem agree_get {env : Env (D F)} {e i : Expr F} {l : Layout} {ws : List (PVal F)} {n : Int} {v : PVal F} (he : AgreeE I env (.vec l) e (.arr ws))
    (hd : Dims I env e (.arr ws)) (hi : AgreeE I env .atom i (.sc (.i n))) (hv : elementAt ws n = some v)
    (hs : ∀ a ∈ ws, ∀ b ∈ ws, PVal.SameShape a b) : AgreeE I env l (Phi.get e i) v ∧ Dims I env (Phi.get e i) v := by
  constructor
  · intro d hd
    rw [run_getAt, getOf] at hd
    simp only [Option.bind_eq_some_iff] at hd
    obtain ⟨vs, ⟨de, h1, h2⟩, n', ⟨di, h3, h4⟩, h5⟩ := hd
    cases asVec_eq h2
    cases asInt_eq h4
    have h6 := hi _ h3
    simp only [view, Option.some.injEq, PVal.sc.injEq, Scal.i.injEq] at h6
    subst h6
    have h7 := get_eq_element (view_arr (he _ h1)) n'
    rw [h5, Option.bind_some] at h7
    rw [h7]
    exact hv
  · intro k m' m hn hm
    rw [Phi.get, dimExpr_get] at hn
    refine hd (k + 1) m' m hn ?_
    have hmem := List.mem_of_getElem? hv
    cases ws with
    | nil => simp at hmem
    | cons w ws =>
      rw [axis, axis_same k w (hs w (by simp) v hmem)]
      exact hm

theorem agree_dim {env : Env (D F)} {e : Expr F} {l : Layout} {k n : Nat} {v : PVal F} (he : AgreeE I env l e v) (hn : extent k v = some n) :
    AgreeE I env .atom (dim e k) (.sc (.i n)) := by
  intro d hd
  rw [run_dim_node, dimOf] at hd
  simp only [Option.bind_eq_some_iff, Option.some.injEq] at hd
  obtain ⟨m, ⟨de, h1, h2⟩, rfl⟩ := hd
  cases (extent_dim (he _ h1) hn).symm.trans h2
  rfl

theorem agree_concat {env : Env (D F)} {a b : Expr F} {l : Layout} {vs ws : List (PVal F)} (ha : AgreeE I env (.vec l) a (.arr vs))
    (hb : AgreeE I env (.vec l) b (.arr ws)) : AgreeE I env (.vec l) (node .concat [a, b]) (.arr (vs ++ ws)) := by
  intro d hd
  rw [Midend.run_concat, concatOf] at hd
  simp only [Option.bind_eq_some_iff] at hd
  obtain ⟨xs, ⟨da, h1, h2⟩, ys, ⟨db, h3, h4⟩, h5⟩ := hd
  cases asVec_eq h2
  cases asVec_eq h4
  split at h5
  · cases h5
    rw [view, Midend.mapOpt_append (view_arr (ha _ h1)) (view_arr (hb _ h3))]
    rfl
  · cases h5

theorem agree_find {n : String} {env : Env (D F)} : ∀ {os : Fields F} {o : Obj F} {l : List (String × PVal F)} {v : PVal F},
    os.lookup n = some o → AgreeF I env os l → (l.find? fun p => p.1 = n).map Prod.snd = some v → Agree I env o v
  | .nil, _, _, _, h, _, _ => by simp [Fields.lookup] at h
  | .cons _ _ _, _, [], _, _, h, _ => by simp only [AgreeF] at h
  | .cons m o' os, o, (m', w) :: l, v, h, hl, hv => by
    simp only [AgreeF] at hl
    obtain ⟨rfl, h1, h2⟩ := hl
    rw [Fields.lookup] at h
    by_cases hm : m = n
    · simp only [hm, if_true, Option.some.injEq] at h
      subst h
      simp only [List.find?_cons, hm, decide_true, Option.map_some, Option.some.injEq] at hv
      rw [← hv]
      exact h1
    · rw [if_neg hm] at h
      simp only [List.find?_cons, hm, decide_false] at hv
      exact agree_find h h2 hv

theorem agree_nth {env : Env (D F)} : ∀ {i : Nat} {os : Fields F} {o : Obj F} {l : List (String × PVal F)} {v : PVal F},
    os.toList[i]? = some o → AgreeF I env os l → l[i]?.map Prod.snd = some v → Agree I env o v
  | i, .nil, _, _, _, h, _, _ => by simp [Fields.toList] at h
  | _, .cons _ _ _, _, [], _, _, h, _ => by simp only [AgreeF] at h
  | 0, .cons m o' os, o, (m', w) :: l, v, h, hl, hv => by
    simp only [AgreeF] at hl
    simp only [Fields.toList, List.getElem?_cons_zero, Option.some.injEq, Option.map_some] at h hv
    rw [← h, ← hv]
    exact hl.2.1
  | i + 1, .cons m o' os, o, (m', w) :: l, v, h, hl, hv => by
    simp only [AgreeF] at hl
    exact agree_nth (i := i) (by simpa [Fields.toList] using h) hl.2.2 (by simpa using hv)

theorem Agree.fieldOf {env : Env (D F)} {n : String} {o o' : Obj F} {v v' : PVal F} (h : Agree I env o v) (ho : fieldObj n o = some o')
    (hv : fieldOf n v = some v') : Agree I env o' v' := by
  cases o with
  | struct k fs =>
    cases v with
    | record k' l =>
      simp only [Agree] at h
      obtain ⟨rfl, h⟩ := h
      cases k <;> simp only [fieldObj, Frontend.fieldOf, reduceCtorEq] at ho hv
      · exact agree_find ho h hv
      · exact agree_find ho h hv
    | _ => simp only [Agree] at h
  | _ => simp [fieldObj] at ho

theorem Agree.partOf {env : Env (D F)} {i : Nat} {o o' : Obj F} {v v' : PVal F} (h : Agree I env o v) (ho : partObj i o = some o')
    (hv : partOf i v = some v') : Agree I env o' v' := by
  cases o with
  | struct k fs =>
    cases v with
    | record k' l =>
      simp only [Agree] at h
      obtain ⟨rfl, h⟩ := h
      cases k <;> simp only [partObj, Frontend.partOf, reduceCtorEq] at ho hv
      exact agree_nth ho h hv
    | _ => simp only [Agree] at h
  | _ => simp [partObj] at ho

theorem foldl_bind_some {α β : Type} {f : α → β → Option α} {q : β} {l : List β} {x : α} {y : α}
    (h : (q :: l).foldl (fun o q => o.bind fun o => f o q) (some x) = some y) :
    ∃ z, f x q = some z ∧ l.foldl (fun o q => o.bind fun o => f o q) (some z) = some y := by
  rw [List.foldl_cons, Option.bind_some] at h
  cases hf : f x q with
  | none => rw [hf, foldl_bind_none f] at h; cases h
  | some z => rw [hf] at h; exact ⟨z, rfl, h⟩

/-- The components of a place. -/
def objStep (o : Obj F) (q : Nat ⊕ String) : Option (Obj F) := match q with | .inl i => partObj i o | .inr n => fieldObj n o
def valStep (v : PVal F) (q : Nat ⊕ String) : Option (PVal F) := match q with | .inl i => partOf i v | .inr n => fieldOf n v

theorem agree_parts {env : Env (D F)} : ∀ (l : List (Nat ⊕ String)) {o o' : Obj F} {v v' : PVal F}, Agree I env o v →
    l.foldl (fun o q => o.bind fun o => objStep o q) (some o) = some o' →
    l.foldl (fun v q => v.bind fun v => valStep v q) (some v) = some v' → Agree I env o' v'
  | [], o, o', v, v', h, ho, hv => by
    cases ho
    cases hv
    exact h
  | q :: l, o, o', v, v', h, ho, hv => by
    obtain ⟨o1, h1, h2⟩ := foldl_bind_some (f := objStep) ho
    obtain ⟨v1, h3, h4⟩ := foldl_bind_some (f := valStep) hv
    refine agree_parts l ?_ h2 h4
    cases q with
    | inl i => exact h.partOf h1 h3
    | inr n => exact h.fieldOf h1 h3

theorem place_agree {env : Env (D F)} {p : Place} {os : List (Obj F)} {vs : List (PVal F)} {o : Obj F} {v : PVal F}
    (h : List.Forall₂ (Agree I env) os vs) (ho : p.obj os = some o) (hv : p.val vs = some v) : Agree I env o v := by
  have ho' : p.parts.foldl (fun o q => o.bind fun o => objStep o q) os[p.loc]? = some o := ho
  have hv' : p.parts.foldl (fun v q => v.bind fun v => valStep v q) vs[p.loc]? = some v := hv
  obtain ⟨hl, hh⟩ := List.forall₂_iff_get.1 h
  by_cases hp : p.loc < os.length
  · have hp' : p.loc < vs.length := by omega
    rw [List.getElem?_eq_getElem hp] at ho'
    rw [List.getElem?_eq_getElem hp'] at hv'
    exact agree_parts _ (hh _ hp hp') ho' hv'
  · rw [List.getElem?_eq_none (by omega), foldl_bind_none objStep] at ho'
    cases ho'

end Verif.Frontend
