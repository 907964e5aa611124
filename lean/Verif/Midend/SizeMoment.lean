import Verif.Midend.SizePath
import Verif.Midend.Cse

/-! Every evaluation in which all loops run has a moment. -/

set_option linter.unusedSectionVars false

namespace Verif.Midend
open Verif.Phi Verif.Term Verif.Codegen
variable {F : Type} [FloatOps F] [DecidableEq F]

/-- The first element of each vector, paired. -/
def firstRow (I : Ext F) (vs : List (Expr F)) (env : Env (D F)) : Option (D F) :=
  (mapOpt (fun v : Option (D F) => v.bind Val.asVec) (vs.map fun t => run I t env)).bind fun ls => rowAt ls 0

/-- Give the symbols bound at a node the values they have in the first round. -/
def bindFirst (I : Ext F) (env : Env (D F)) : Expr F → Env (D F)
  | .node (.letv v) [b, _] => env.set (.var v) (run I b env)
  | .node (.fold c a) [_, z, _] => (env.set (.var a) (run I z env)).set (.var c) (some (.int 0))
  | .node (.reduce x y) (z :: _ :: vs) => (env.set (.var x) (run I z env)).set (.var y) (firstRow I vs env)
  | _ => env

/-- What `run` needs of the environment. -/
theorem run_agree {I : Ext F} {e : Expr F} (hs : Scoped e) {env env' : Env (D F)} (h : Env.AgreeOn (fv e) env env') :
    run I e env = run I e env' := (Phi.strict I).eval_agree_eq e hs h

theorem runBusy_agree {I : Ext F} {e : Expr F} (hs : Scoped e) {env env' : Env (D F)}
    (h : Env.AgreeOn (fv e) env env') : runBusy I e env = runBusy I e env' := (Phi.busy I).eval_agree_eq e hs h

omit [FloatOps F] in
/-- The sub-expressions outside the scope of a binder use what the whole expression uses. -/
theorem fv_outside {h : Phi.Head F} {ts : List (Expr F)} (hs : Scoped (node h ts)) {k : Nat} {t : Expr F}
    (ht : ts[k]? = some t) (ho : outside h k = true) : fv t ⊆ fv (node h ts) := by
  intro s hst
  refine mem_fv.2 ⟨Or.inr ⟨t, List.mem_of_getElem? ht, hst⟩, fun hc => ?_⟩
  exact Finset.disjoint_left.1 (hs.out k t ht ho) hc hst

omit [FloatOps F] in
theorem set_of_ne {env : Env (D F)} {s s' : Sym} {x : Option (D F)} (h : s' ≠ s) : env.set s x s' = env s' := by
  unfold Env.set; rw [if_neg h]

omit [FloatOps F] in
theorem set_same {env : Env (D F)} {s : Sym} {x : Option (D F)} : env.set s x s = x := by
  unfold Env.set; rw [if_pos rfl]

theorem firstRow_agree {I : Ext F} {vs : List (Expr F)} {env env' : Env (D F)}
    (h : ∀ t ∈ vs, run I t env = run I t env') : firstRow I vs env = firstRow I vs env' := by
  unfold firstRow
  rw [List.map_congr_left h]

/-- `bindFirst` changes only the symbols bound at the node. -/
theorem bindFirst_other {I : Ext F} {env : Env (D F)} {e : Expr F} {s : Sym} (h : s ∉ Lang.captured e.head) :
    bindFirst I env e s = env s := by
  unfold bindFirst
  split
  · rename_i v b _
    have : s ∉ ({.var v} : Finset Sym) := h
    exact set_of_ne (by simpa using this)
  · rename_i c a _ z _
    have : s ∉ ({.var c, .var a} : Finset Sym) := h
    simp only [Finset.mem_insert, Finset.mem_singleton, not_or] at this
    rw [set_of_ne this.1, set_of_ne this.2]
  · rename_i x y z _ vs
    have : s ∉ ({.var x, .var y} : Finset Sym) := h
    simp only [Finset.mem_insert, Finset.mem_singleton, not_or] at this
    rw [set_of_ne this.2, set_of_ne this.1]
  · rfl

/-- The values `bindFirst` gives depend on the free symbols of the node only. -/
theorem bindFirst_agree {I : Ext F} {env env' : Env (D F)} {e : Expr F} (hs : Scoped e)
    (ha : Env.AgreeOn (fv e) env env') {s : Sym} (h : s ∈ Lang.captured e.head) :
    bindFirst I env e s = bindFirst I env' e s ∨ (bindFirst I env e = env ∧ bindFirst I env' e = env') := by
  unfold bindFirst
  split
  · left
    rename_i v b e
    have : run I b env = run I b env' :=
      run_agree (hs.children b (by simp)) fun s h => ha s (fv_outside hs (k := 0) rfl rfl h)
    have hs' : s = .var v := by simpa using (show s ∈ ({.var v} : Finset Sym) from h)
    rw [hs', set_same, set_same, this]
  · left
    rename_i c a n z b
    have hz : run I z env = run I z env' :=
      run_agree (hs.children z (by simp)) fun s h => ha s (fv_outside hs (k := 1) rfl rfl h)
    have hs' : s ∈ ({.var c, .var a} : Finset Sym) := h
    by_cases hc : s = .var c
    · rw [hc, set_same, set_same]
    · have : s = .var a := by simpa [hc] using hs'
      rw [set_of_ne hc, set_of_ne hc, this, set_same, set_same, hz]
  · left
    rename_i x y z b vs
    have h1 : run I z env = run I z env' :=
      run_agree (hs.children z (by simp)) fun s h => ha s (fv_outside hs (k := 0) rfl rfl h)
    have h2 : firstRow I vs env = firstRow I vs env' := by
      refine firstRow_agree fun t ht => run_agree (hs.children t (by simp [ht])) fun s h => ha s ?_
      obtain ⟨k, hk, hkt⟩ := List.getElem_of_mem ht
      refine fv_outside hs (k := k + 2) (t := t) ?_ ?_ h
      · simp [List.getElem?_eq_getElem hk, hkt]
      · simp [outside]
    have hs' : s ∈ ({.var x, .var y} : Finset Sym) := h
    by_cases hc : s = .var y
    · rw [hc, set_same, set_same, h2]
    · have : s = .var x := by simpa [hc] using hs'
      rw [set_of_ne hc, set_of_ne hc, this, set_same, set_same, h1]
  · right; exact ⟨rfl, rfl⟩

/-- The symbols bound at the node have the values of the first round. -/
def Bound (I : Ext F) (env : Env (D F)) (e : Expr F) : Prop := bindFirst I env e = env

theorem Bound.agree {I : Ext F} {env env' : Env (D F)} {e : Expr F} (hs : Scoped e) (hb : Bound I env e)
    (ha : Env.AgreeOn (fv e) env env') (hc : Env.AgreeOn (Lang.captured e.head) env env') : Bound I env' e := by
  funext s
  by_cases h : s ∈ Lang.captured e.head
  · rcases bindFirst_agree (I := I) hs ha h with h1 | h1
    · rw [← h1, hb, hc s h]
    · rw [h1.2]
  · exact bindFirst_other h

omit [FloatOps F] in
theorem captured_fv (e : Expr F) {s : Sym} (h : s ∈ Lang.captured e.head) : s ∉ fv e := by
  obtain ⟨hd, ts⟩ := e
  intro hs
  exact (mem_fv.1 hs).2 h

theorem bound_bindFirst {I : Ext F} (env : Env (D F)) {e : Expr F} (hs : Scoped e) : Bound I (bindFirst I env e) e := by
  funext s
  by_cases h : s ∈ Lang.captured e.head
  · have ha : Env.AgreeOn (fv e) env (bindFirst I env e) := fun s' hs' =>
      (bindFirst_other fun hc => captured_fv e hc hs').symm
    rcases bindFirst_agree (I := I) hs ha h with h1 | h1
    · exact h1.symm
    · rw [h1.2]
  · exact bindFirst_other h

/-! ### Binding everything -/

/-- Bind the symbols of a list of nodes, one after the other. -/
def bindAllFirst (I : Ext F) (env : Env (D F)) (l : List (Expr F)) : Env (D F) := l.foldl (bindFirst I) env

/-- Each node uses only symbols of `S` or bound by an earlier node. -/
def Ordered (S : Finset Sym) : List (Expr F) → Prop
  | [] => True
  | e :: l => fv e ⊆ S ∧ Ordered (S ∪ Lang.captured e.head) l

omit [FloatOps F] in
theorem Ordered.mono {l : List (Expr F)} : ∀ {S T : Finset Sym}, S ⊆ T → Ordered S l → Ordered T l := by
  induction l with
  | nil => exact fun _ _ => trivial
  | cons e l ih =>
    intro S T hST h
    exact ⟨h.1.trans hST, ih (Finset.union_subset_union_left hST) h.2⟩

omit [FloatOps F] in
theorem Ordered.append {l m : List (Expr F)} : ∀ {S : Finset Sym}, Ordered S l → Ordered S m → Ordered S (l ++ m) := by
  induction l with
  | nil => exact fun _ h => h
  | cons e l ih =>
    intro S hl hm
    exact ⟨hl.1, ih hl.2 (hm.mono Finset.subset_union_left)⟩

omit [FloatOps F] in
/-- The occurrences of sub-expressions, outer ones first, are ordered. -/
theorem ordered_occurrences (e : Expr F) : ∀ S, fv e ⊆ S → Ordered S (occurrences e) := by
  induction e using ind with
  | step h ts ih =>
    intro S hS
    rw [occurrences_node]
    refine ⟨hS, ?_⟩
    have hch : ∀ t ∈ ts, Ordered (S ∪ Lang.captured h) (occurrences t) := fun t ht =>
      ih t ht _ (fv_child_subset ht hS)
    show Ordered (S ∪ Lang.captured h) _
    clear ih hS
    induction ts with
    | nil => trivial
    | cons t ts ih =>
      rw [List.map_cons, List.flatten_cons]
      exact (hch t (by simp)).append (ih fun u hu => hch u (by simp [hu]))

/-- After binding an ordered list, all its nodes are bound. -/
theorem bindAllFirst_bound {I : Ext F} {p : Expr F} (hu : UniqueBinders p) (hs : Scoped p) (l : List (Expr F)) :
    ∀ (done : List (Expr F)) (env : Env (D F)), (∀ e ∈ done ++ l, Occurs e p) →
      (∀ e ∈ done, Bound I env e ∧ fv e ⊆ fv p ∪ (done.map fun e => Lang.captured e.head).foldr (· ∪ ·) ∅) →
      Ordered (fv p ∪ (done.map fun e => Lang.captured e.head).foldr (· ∪ ·) ∅) l →
      (∀ e ∈ done ++ l, Bound I (bindAllFirst I env l) e) ∧
      ∀ s, s ∉ binders p → bindAllFirst I env l s = env s := by
  induction l with
  | nil =>
    intro done env _ hd _
    exact ⟨fun e he => (hd e (by simpa using he)).1, fun _ _ => rfl⟩
  | cons u l ih =>
    intro done env ho hd hl
    have hou : Occurs u p := ho u (by simp)
    have hsu : Scoped u := hs.occurs hou
    have hcap : ∀ s ∈ Lang.captured u.head, s ∈ binders p := fun s h => by
      obtain ⟨hd', ts⟩ := u
      exact mem_binders_iff.2 ⟨hd', ts, hou, h⟩
    have hstep : ∀ e ∈ done ++ [u], Bound I (bindFirst I env u) e := by
      by_cases hin : u ∈ done
      · have hb : bindFirst I env u = env := (hd u hin).1
        rw [hb]
        intro e he
        rcases List.mem_append.1 he with he | he
        · exact (hd e he).1
        · rw [List.mem_singleton.1 he]; exact hb
      · intro e he
        rcases List.mem_append.1 he with he | he
        · have hoe : Occurs e p := ho e (List.mem_append_left _ he)
          have hne : ∀ w ∈ done, ∀ s ∈ Lang.captured u.head, s ∉ Lang.captured w.head := by
            intro w hw s h1 h2
            have how : Occurs w p := ho w (List.mem_append_left _ hw)
            obtain ⟨hu', us⟩ := u
            obtain ⟨hw', ws⟩ := w
            have := hu.uniq _ _ _ _ s hou how h1 h2
            exact hin (this ▸ hw)
          refine (hd e he).1.agree (hs.occurs hoe) ?_ ?_
          · intro s hse
            refine (bindFirst_other fun hc => ?_).symm
            rcases Finset.mem_union.1 ((hd e he).2 hse) with h | h
            · exact Finset.disjoint_left.1 hu.closed (hcap s hc) h
            · rw [mem_foldr_union] at h
              obtain ⟨x, hx, hsx⟩ := h
              obtain ⟨w, hw, rfl⟩ := List.mem_map.1 hx
              exact hne w hw s hc hsx
          · intro s hse
            exact (bindFirst_other fun hc => hne e he s hc hse).symm
        · rw [List.mem_singleton.1 he]; exact bound_bindFirst env hsu
    have hset : ((done ++ [u]).map fun e => Lang.captured e.head).foldr (· ∪ ·) ∅ =
        (done.map fun e => Lang.captured e.head).foldr (· ∪ ·) ∅ ∪ Lang.captured u.head := by
      ext s
      simp only [mem_foldr_union, Finset.mem_union, List.map_append, List.mem_append, List.map_cons, List.map_nil,
        List.mem_singleton]
      constructor
      · rintro ⟨x, hx | rfl, h⟩
        · exact Or.inl ⟨x, hx, h⟩
        · exact Or.inr h
      · rintro (⟨x, hx, h⟩ | h)
        · exact ⟨x, Or.inl hx, h⟩
        · exact ⟨_, Or.inr rfl, h⟩
    have := ih (done ++ [u]) (bindFirst I env u) (by simpa using ho) (fun e he => ⟨hstep e he, by
        rw [hset, ← Finset.union_assoc]
        rcases List.mem_append.1 he with he | he
        · exact (hd e he).2.trans Finset.subset_union_left
        · rw [List.mem_singleton.1 he]; exact hl.1.trans Finset.subset_union_left⟩)
      (by rw [hset, ← Finset.union_assoc]; exact hl.2)
    refine ⟨by simpa [bindAllFirst] using this.1, fun s hs' => ?_⟩
    have h1 := this.2 s hs'
    show bindAllFirst I (bindFirst I env u) l s = env s
    rw [h1, bindFirst_other fun hc => hs' (hcap s hc)]

/-- Binding keeps values regular. -/
theorem bindAllFirst_regular {I : Ext F} (hI : RegularExt I) {p : Expr F} (hc : RegularConsts p) (l : List (Expr F)) :
    ∀ env : Env (D F), (∀ e ∈ l, Occurs e p) → RegularEnv env → RegularEnv (bindAllFirst I env l) := by
  have hset : ∀ {env : Env (D F)} (s : Sym) {x : Option (D F)}, RegularEnv env → (∀ v, x = some v → Val.Regular v) →
      RegularEnv (env.set s x) := by
    intro env s x h hx s' v hv
    unfold Env.set at hv
    split at hv
    · exact hx v hv
    · exact h s' v hv
  induction l with
  | nil => exact fun _ _ h => h
  | cons u l ih =>
    intro env ho h
    refine ih _ (fun e he => ho e (List.mem_cons_of_mem _ he)) ?_
    have hrun : ∀ t, Occurs t u → ∀ v, run I t env = some v → Val.Regular v := fun t ht v hv =>
      run_regular hI t (regularConsts_occurs (ht.trans (ho u List.mem_cons_self)) hc) env v h hv
    unfold bindFirst
    split
    · rename_i v b _
      exact hset _ h (hrun b (.child (by simp) (.refl _)))
    · rename_i c a _ z _
      refine hset _ (hset _ h (hrun z (.child (by simp) (.refl _)))) ?_
      rintro _ ⟨⟩; exact .sc _
    · rename_i x y z b vs
      refine hset _ (hset _ h (hrun z (.child (by simp) (.refl _)))) ?_
      intro r hr
      obtain ⟨ls, h1, h2⟩ := Option.bind_eq_some_iff.1 hr
      obtain ⟨rs, h3, h4⟩ := Option.bind_eq_some_iff.1 h2
      have hls : ∀ ws ∈ ls, ∀ w ∈ ws, Val.Regular w := by
        refine mapOpt_prop (P := fun ws => ∀ w ∈ ws, Val.Regular w) ?_ h1
        intro o ho' ws hws
        obtain ⟨t, ht, rfl⟩ := List.mem_map.1 ho'
        have := hrun t (.child (by simp [ht]) (.refl _)) _ (regular_asVec hws)
        cases this with | vec _ h => exact h
      have hrs : ∀ r ∈ rs, Val.Regular r :=
        mapOpt_prop (P := Val.Regular) (fun l hl r hr => hls l hl r (List.mem_of_getElem? hr)) h3
      cases rs with
      | nil => cases h4
      | cons r rs =>
        cases h4
        exact regular_foldl_pair (hrs r (by simp)) fun x hx => hrs x (by simp [hx])
    · exact h

/-! ### All sub-expressions have values -/

theorem runBusy_node (I : Ext F) (h : Phi.Head F) (ts : List (Expr F)) :
    runBusy I (node h ts) = busyDen I h (ts.map (runBusy I)) := cata_node _ _ _

/-- Where a node is bound, its sub-expressions have a value if it has one. -/
theorem busy_child {I : Ext F} {η : Env (D F)} {h : Phi.Head F} {ts : List (Expr F)} {v : D F}
    (hv : runBusy I (node h ts) η = some v) (hb : Bound I η (node h ts)) (h0 : ∀ i, η (.idx i) = some (.int 0)) :
    ∀ t ∈ ts, ∃ w, runBusy I t η = some w := by
  have hdem := busyDen_demand I h (ts.map (runBusy I)) η (by rw [← runBusy_node, hv]; rfl)
  have hout : ∀ (k : Nat) t, ts[k]? = some t → outside h k = true → ∃ w, runBusy I t η = some w := by
    intro k t hk ho
    exact Option.isSome_iff_exists.1 ((hdem k (runBusy I t) (by simp [hk])).1 ho)
  have hin : h.captured = ∅ → ∀ (k : Nat) t, ts[k]? = some t → outside h k = false →
      ∃ w, runBusy I t η = some w := by
    intro hc k t hk ho
    obtain ⟨ext, he⟩ := (hdem k (runBusy I t) (by simp [hk])).2 ho
    rw [hc, override_empty] at he
    exact Option.isSome_iff_exists.1 he
  have hall : h.captured = ∅ → ∀ t ∈ ts, ∃ w, runBusy I t η = some w := by
    intro hc t ht
    obtain ⟨k, hk, hkt⟩ := List.getElem_of_mem ht
    have hk' : ts[k]? = some t := by rw [List.getElem?_eq_getElem hk, hkt]
    cases ho : outside h k with
    | true => exact hout k t hk' ho
    | false => exact hin hc k t hk' ho
  have hv0 := hv
  rw [runBusy_node] at hv
  cases h with
  | letv u =>
    rcases ts with _ | ⟨a, _ | ⟨b, _ | ⟨_, _⟩⟩⟩ <;> try cases hv
    simp only [List.map, busyDen, runDen] at hv
    obtain ⟨x, h1, h2⟩ := Option.bind_eq_some_iff.1 hv
    intro t ht
    simp only [List.mem_cons, List.not_mem_nil, or_false] at ht
    rcases ht with rfl | rfl
    · exact ⟨x, h1⟩
    · refine ⟨v, ?_⟩
      have hb' : η.set (.var u) (run I a η) = η := hb
      rw [runBusy_run I a η x h1] at hb'
      rwa [hb'] at h2
  | vec i =>
    rcases ts with _ | ⟨n, _ | ⟨b, _ | ⟨_, _⟩⟩⟩ <;> try cases hv
    simp only [List.map, busyDen, needTrip] at hv
    obtain ⟨m, h1, h2⟩ := Option.bind_eq_some_iff.1 hv
    split at h2
    · rename_i hm
      simp only [runDen, vecOf, h1, Option.bind_some] at h2
      obtain ⟨vs, h3, _⟩ := Option.bind_eq_some_iff.1 h2
      have h4 := mapOpt_getElem? h3 0
      have hl := mapOpt_length h3
      rw [List.length_range] at hl
      rw [List.getElem?_range (by omega), List.getElem?_eq_getElem (by omega), Option.bind_some] at h4
      intro t ht
      simp only [List.mem_cons, List.not_mem_nil, or_false] at ht
      rcases ht with rfl | rfl
      · exact hout 0 t rfl rfl
      · refine ⟨_, Eq.trans ?_ h4.symm⟩
        congr 1
        exact (env_set_self (h0 i)).symm
    · cases h2
  | fold c a =>
    rcases ts with _ | ⟨n, _ | ⟨z, _ | ⟨b, _ | ⟨_, _⟩⟩⟩⟩ <;> try cases hv
    simp only [List.map, busyDen, needTrip] at hv
    obtain ⟨m, h1, h2⟩ := Option.bind_eq_some_iff.1 hv
    split at h2
    · rename_i hm
      simp only [runDen, foldOf, h1, Option.bind_some] at h2
      obtain ⟨x, h3, h4⟩ := Option.bind_eq_some_iff.1 h2
      obtain ⟨l, hl⟩ := range_pos (n := m.toNat) (by omega)
      rw [hl] at h4
      simp only [loopOpt] at h4
      obtain ⟨y, h5, _⟩ := Option.bind_eq_some_iff.1 h4
      intro t ht
      simp only [List.mem_cons, List.not_mem_nil, or_false] at ht
      rcases ht with rfl | rfl | rfl
      · exact hout 0 t rfl rfl
      · exact hout 1 t rfl rfl
      · refine ⟨y, ?_⟩
        have hb' : (η.set (.var a) (run I z η)).set (.var c) (some (.int 0)) = η := hb
        rw [runBusy_run I z η x h3] at hb'
        have h5' : runBusy I t ((η.set (.var a) (some x)).set (.var c) (some (.int 0))) = some y := h5
        rwa [hb'] at h5'
    · cases h2
  | reduce x y =>
    rcases ts with _ | ⟨z, _ | ⟨b, l⟩⟩ <;> try cases hv
    simp only [List.map_cons, busyDen] at hv
    have hr := needRow_le _ hv
    simp only [runDen, reduceOf] at hr
    obtain ⟨vs, h1, h2⟩ := Option.bind_eq_some_iff.1 hr
    have hrow : ∀ (q : D F), rowAt vs 0 = some q → firstRow I l η = some q := by
      intro q hq
      refine Option.bind_eq_some_iff.2 ⟨vs, ?_, hq⟩
      rw [mapOpt_map]
      rw [List.map_map, mapOpt_map] at h1
      refine mapOpt_mono ?_ h1
      intro t _ w hw
      obtain ⟨u, h3, h4⟩ := Option.bind_eq_some_iff.1 hw
      exact Option.bind_eq_some_iff.2 ⟨u, runBusy_run I t η u h3, h4⟩
    cases vs with
    | nil => cases h2
    | cons w ws =>
      simp only at h2
      split at h2
      · obtain ⟨x0, h3, h4⟩ := Option.bind_eq_some_iff.1 h2
        have hw : w ≠ [] := by
          cases l with
          | nil => cases hv
          | cons t l =>
            simp only [List.map_cons, needRow] at hv
            obtain ⟨w', h5, h6⟩ := Option.bind_eq_some_iff.1 hv
            simp only [List.map_cons, mapOpt, h5, Option.bind_some] at h1
            obtain ⟨ws', _, h7⟩ := Option.bind_eq_some_iff.1 h1
            cases h7
            rintro rfl
            rw [if_pos rfl] at h6
            cases h6
        obtain ⟨l', hl'⟩ := range_pos (n := w.length) (List.length_pos_iff.2 hw)
        rw [hl'] at h4
        simp only [loopOpt] at h4
        obtain ⟨y0, h5, _⟩ := Option.bind_eq_some_iff.1 h4
        obtain ⟨q, h6, h7⟩ := Option.bind_eq_some_iff.1 h5
        intro t ht
        rcases List.mem_cons.1 ht with rfl | ht
        · exact hout 0 t rfl rfl
        rcases List.mem_cons.1 ht with rfl | ht
        · refine ⟨y0, ?_⟩
          have hb' : (η.set (.var x) (run I z η)).set (.var y) (firstRow I l η) = η := hb
          rw [runBusy_run I z η x0 h3, hrow q h6] at hb'
          rwa [hb'] at h7
        · obtain ⟨k, hk, hkt⟩ := List.getElem_of_mem ht
          exact hout (k + 2) t (by simp [List.getElem?_eq_getElem hk, hkt]) (by simp [outside])
      · cases h2
  | _ => exact hall rfl

theorem busy_occurs {I : Ext F} {η : Env (D F)} {e p : Expr F} (ho : Occurs e p)
    (hb : ∀ u, Occurs u p → Bound I η u) (h0 : ∀ i, η (.idx i) = some (.int 0)) :
    (∃ v, runBusy I p η = some v) → ∃ v, runBusy I e η = some v := by
  induction ho with
  | refl => exact fun h => h
  | child ht ho' ih =>
    rintro ⟨v, hv⟩
    exact ih (fun u hu => hb u (.child ht hu)) (busy_child hv (hb _ (.refl _)) h0 _ ht)

/-- Is the expression a comprehension over this index? -/
def isVecOf (i : Nat) (e : Expr F) : Bool :=
  match e.head with
  | .vec j => decide (j = i)
  | _ => false

/-- The range of an index at a moment: the size of the comprehension that binds it. -/
def rangeOf (I : Ext F) (p : Expr F) (η : Env (D F)) (i : Nat) : Int :=
  match (occurrences p).find? (isVecOf i) with
  | some e => (((e.subs[0]?).bind fun n => run I n η).bind Val.asInt).getD 0
  | none => 0

theorem bindFirst_idx (I : Ext F) (env : Env (D F)) (e : Expr F) (i : Nat) :
    bindFirst I env e (.idx i) = env (.idx i) := by
  unfold bindFirst
  split
  · exact set_of_ne (by simp)
  · rw [set_of_ne (by simp), set_of_ne (by simp)]
  · rw [set_of_ne (by simp), set_of_ne (by simp)]
  · rfl

theorem bindAllFirst_idx (I : Ext F) (l : List (Expr F)) (i : Nat) :
    ∀ env, bindAllFirst I env l (.idx i) = env (.idx i) := by
  induction l with
  | nil => exact fun _ => rfl
  | cons u l ih => exact fun env => (ih (bindFirst I env u)).trans (bindFirst_idx I env u i)

/-- A program whose loops all run has a moment: the first round of everything. -/
theorem exists_moment {I : Ext F} {p : Expr F} (hu : UniqueBinders p) (hs : Scoped p)
    (hca : ∀ c a n z b, Occurs (fold c a n z b) p → c ≠ a) {env : Env (D F)}
    (h0 : ∀ i, env (.idx i) = some (.int 0)) {v : D F} (hv : runBusy I p env = some v) :
    ∃ sz η, (∀ s ∈ fv p, η s = env s) ∧ Moment I p sz η ∧
      (RegularConsts p → RegularExt I → RegularEnv env → RegularEnv η) := by
  obtain ⟨hb, hout⟩ := bindAllFirst_bound (I := I) hu hs (occurrences p) [] env
    (fun e he => mem_occurrences.1 (by simpa using he)) (by simp)
    ((ordered_occurrences p _ (Finset.Subset.refl _)).mono (by simp))
  generalize hη : bindAllFirst I env (occurrences p) = η at hb hout
  have hb' : ∀ u, Occurs u p → Bound I η u := fun u ho => hb u (by simpa using mem_occurrences.2 ho)
  have hi : ∀ i, η (.idx i) = some (.int 0) := fun i => by rw [← hη, bindAllFirst_idx, h0]
  have hag : ∀ s ∈ fv p, η s = env s := fun s h => hout s fun hbd => Finset.disjoint_left.1 hu.closed hbd h
  have hv' : runBusy I p η = some v := by
    rw [← hv]; exact runBusy_agree hs hag
  have hval : ∀ e, Occurs e p → ∃ w, runBusy I e η = some w := fun e ho => busy_occurs ho hb' hi ⟨v, hv'⟩
  refine ⟨rangeOf I p η, η, hag, ⟨hi, ?_, ?_, ?_, ?_⟩, ?_⟩
  · intro e ho
    obtain ⟨w, hw⟩ := hval e ho
    exact ⟨w, runBusy_run I e η w hw⟩
  · intro u b e ho
    have : η.set (.var u) (run I b η) = η := hb' _ ho
    rw [← congrFun this (.var u), set_same]
  · intro i n b ho
    obtain ⟨w, hw⟩ := hval _ ho
    unfold vec at hw
    rw [runBusy_node] at hw
    simp only [List.map, busyDen, needTrip] at hw
    obtain ⟨m, h1, h2⟩ := Option.bind_eq_some_iff.1 hw
    split at h2
    · rename_i hm
      have hn : run I n η = some (.int m) := by
        obtain ⟨x, h3, h4⟩ := Option.bind_eq_some_iff.1 h1
        rw [runBusy_run I n η x h3]
        cases x with
        | sc c => cases c <;> simp [Val.asInt] at h4; subst h4; rfl
        | vec _ => cases h4
        | pair _ _ => cases h4
      have hr : rangeOf I p η i = m := by
        unfold rangeOf
        have hfind : (occurrences p).find? (isVecOf i) = some (vec i n b) := by
          cases hf : (occurrences p).find? (isVecOf i) with
          | none =>
            have := List.find?_eq_none.1 hf _ (mem_occurrences.2 ho)
            simp [isVecOf, vec, Term.head] at this
          | some e =>
            have h3 := List.find?_some hf
            have h4 := mem_occurrences.1 (List.mem_of_find?_eq_some hf)
            obtain ⟨h, ts⟩ := e
            cases h <;> simp [isVecOf, Term.head] at h3
            subst h3
            exact congrArg some (hu.uniq _ _ _ _ (.idx _) h4 ho (Finset.mem_singleton_self _) (Finset.mem_singleton_self _))
        rw [hfind]
        simp [vec, Term.subs, hn, Val.asInt]
      rw [hr]
      exact ⟨hn, by omega⟩
    · cases h2
  · intro c a n z b ho
    obtain ⟨w, hw⟩ := hval _ ho
    unfold fold at hw
    rw [runBusy_node] at hw
    simp only [List.map, busyDen, needTrip] at hw
    obtain ⟨m, h1, h2⟩ := Option.bind_eq_some_iff.1 hw
    split at h2
    · rename_i hm
      have hn : run I n η = some (.int m) := by
        obtain ⟨x, h3, h4⟩ := Option.bind_eq_some_iff.1 h1
        rw [runBusy_run I n η x h3]
        cases x with
        | sc c => cases c <;> simp [Val.asInt] at h4; subst h4; rfl
        | vec _ => cases h4
        | pair _ _ => cases h4
      obtain ⟨x, hx⟩ := hval z (.trans (.child (by simp) (.refl _)) ho)
      have hx' := runBusy_run I z η x hx
      have hbd : (η.set (.var a) (run I z η)).set (.var c) (some (.int 0)) = η := hb' _ ho
      refine ⟨m, x, x, 0, hn, hx', by omega, rfl, ?_, ?_⟩
      · rw [← congrFun hbd (.var a), set_of_ne (by simpa using (hca c a n z b ho).symm), set_same, hx']
      · rw [← congrFun hbd (.var c), set_same]; rfl
    · cases h2
  · intro h1 h2 h3
    rw [← hη]
    exact bindAllFirst_regular h2 h1 _ _ (fun e he => mem_occurrences.1 he) h3

omit [FloatOps F] in
/-- A check of the constants of a program. -/
theorem regularConsts_of (p : Expr F)
    (h : ∀ u ∈ occurrences p, (match u.head with | .const v _ => Val.regular v | _ => true) = true) :
    RegularConsts p := by
  induction p using ind with
  | step hd ts ih =>
    rw [regularConsts_node]
    refine ⟨fun v τ hh => ?_, fun t ht => ih t ht fun u hu => ?_⟩
    · have := h _ (mem_occurrences.2 (.refl _))
      subst hh
      exact Val.regular_iff.1 this
    · exact h u (mem_occurrences.2 (.child ht (mem_occurrences.1 hu)))

end Verif.Midend
