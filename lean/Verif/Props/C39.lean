import Verif.Frontend.ObjSizes

/-!
C39 — slices, `where` on arrays and records, and `assume`.

`x[:, j]` and `where(cond, a, b)` on arrays make comprehensions whose sizes are inferred. The theorems say that the result
is the slice, and one of the two values, for arrays of any dimension, records of any depth, and any alternation of them.
-/

set_option linter.unusedSectionVars false

namespace Verif.Props
open Verif.Phi Verif.Term Verif.Midend Verif.Codegen Verif.Frontend
variable {F : Type} [FloatOps F] [DecidableEq F] {I : Ext F}

/-! ### Specification -/

/-- `x[items]`: an index reads an element, `:` keeps the dimension. -/
def pick : List (Option Int) → PVal F → Option (PVal F)
  | [], v => some v
  | some k :: rest, v => (element v k).bind (pick rest)
  | none :: rest, .arr l => (mapOpt (pick rest) l).map .arr
  | none :: _, _ => none

mutual
/-- Values with equal shapes and kinds of numbers. -/
def Alike : PVal F → PVal F → Prop
  | .sc a, .sc b => a.kind = b.kind
  | .arr l, .arr l' => AlikeList l l'
  | .record k fs, .record k' fs' => k = k' ∧ AlikeFields fs fs'
  | _, _ => False
def AlikeList : List (PVal F) → List (PVal F) → Prop
  | [], [] => True
  | a :: l, b :: l' => Alike a b ∧ AlikeList l l'
  | _, _ => False
def AlikeFields : List (String × PVal F) → List (String × PVal F) → Prop
  | [], [] => True
  | (n, a) :: l, (m, b) :: l' => n = m ∧ Alike a b ∧ AlikeFields l l'
  | _, _ => False
end

theorem AlikeList.length {l l' : List (PVal F)} (h : AlikeList l l') : l.length = l'.length := by
  induction l generalizing l' with
  | nil => cases l' <;> simp [AlikeList] at h ⊢
  | cons a l ih =>
    cases l' with
    | nil => simp [AlikeList] at h
    | cons b l' => rw [AlikeList] at h; simp [ih h.2]

theorem AlikeList.get {l l' : List (PVal F)} (h : AlikeList l l') {k : Nat} {a b : PVal F} (ha : l[k]? = some a)
    (hb : l'[k]? = some b) : Alike a b := by
  induction l generalizing l' k with
  | nil => simp at ha
  | cons x l ih =>
    cases l' with
    | nil => simp [AlikeList] at h
    | cons y l' =>
      rw [AlikeList] at h
      cases k with
      | zero => simp at ha hb; subst ha hb; exact h.1
      | succ k => simp at ha hb; exact ih h.2 ha hb

/-! ### Slices -/

/-- The number an item stands for; `none` is `:`. -/
def itemValue (I : Ext F) (env : Env (D F)) : Item F → Option (Option Int)
  | .at a => (intValue I env (wrap a)).map some
  | .all => some none

/-- What is needed of the items of `x[items]`. -/
def UsableItem (I : Ext F) (B : Sym → Prop) (c : Nat) (env : Env (D F)) : Item F → Prop
  | .at a => Usable B c (wrap a) ∧ (intValue I (zeroIdx env) (wrap a)).isSome
  | .all => True

theorem comp_mono {P Q : Expr F → Prop} (h : ∀ e, P e → Q e) : ∀ o : Obj F, o.Comp P → o.Comp Q := by
  intro o
  induction o using Obj.rec (motive_2 := fun fs => fs.Comp P → fs.Comp Q) with
  | scalar a => simp only [Obj.Comp]; exact h _
  | vec e s => simp only [Obj.Comp]; exact h _
  | raw v τ => simp only [Obj.Comp]; exact h _
  | struct k fs ih => simpa only [Obj.Comp] using ih
  | nil => simp [Fields.Comp]
  | cons n o rest ih1 ih2 =>
    rename_i hh
    simp only [Fields.Comp] at hh ⊢
    exact ⟨ih1 hh.1, ih2 hh.2⟩

theorem occurs_fst {u e : Expr F} (h : Occurs u e) : Occurs u (Phi.fst e) := .child (by simp) h
theorem occurs_snd {u e : Expr F} (h : Occurs u e) : Occurs u (Phi.snd e) := .child (by simp) h

theorem occurs_get {u e : Expr F} (i : Expr F) (h : Occurs u e) : Occurs u (Phi.get e i) := .child (by simp) h

theorem fields_mono {P Q : Expr F → Prop} (h : ∀ e, P e → Q e) (fs : Fields F) (hf : fs.Comp P) : fs.Comp Q := by
  have := comp_mono h (.struct .positional fs) (by simpa [Obj.Comp] using hf)
  simpa [Obj.Comp] using this

theorem run_set_new {B : Sym → Prop} {c : Nat} {e : Expr F} (h : Usable B c e) (env : Env (D F)) (v : Option (D F)) :
    run I e (env.set (.idx c) v) = run I e env :=
  run_agree h.scoping fun x hx => set_of_ne (by rintro rfl; exact absurd (h.old _ hx) (by omega))

/-- The values of the elements of an array, read by a new index. -/
theorem value_rows {B : Sym → Prop} {c : Nat} {e : Expr F} {sub : Layout} (hsub : sub.ok = true) (he : Usable B c e)
    {env : Env (D F)} {vs : List (D F)} {ws : List (PVal F)} (h1 : run I e env = some (.vec vs))
    (h2 : mapOpt (view sub) vs = some ws) {k : Nat} (hk : k < ws.length) :
    value I (env.set (.idx c) (some (.int k))) (unpack sub (Phi.get e (at_ c))) = ws[k]? := by
  rw [value_read hsub ((run_set_new he env _).trans h1) h2 (intValue_at env c k), element]
  congr 1
  omega

theorem mapOpt_range {α : Type} {f : Nat → Option α} {l : List α} (h : ∀ k, k < l.length → f k = l[k]?) :
    mapOpt f (List.range l.length) = some l := by
  have aux : ∀ (l : List α) (s : Nat), (∀ k, k < l.length → f (s + k) = l[k]?) →
      mapOpt f (List.range' s l.length) = some l := by
    intro l
    induction l with
    | nil => intro s _; rfl
    | cons a l ih =>
      intro s h
      have h0 := h 0 (by simp)
      simp only [Nat.add_zero, List.getElem?_cons_zero] at h0
      rw [List.length_cons, List.range'_succ, mapOpt, h0, Option.bind_some, ih (s + 1) (fun k hk => by
        have := h (k + 1) (by simpa using hk)
        rw [List.getElem?_cons_succ] at this
        rw [← this]; congr 1; omega)]
      rfl
  rw [List.range_eq_range']
  exact aux l 0 (fun k hk => by rw [Nat.zero_add]; exact h k hk)

theorem mapOpt_source {α β : Type} {f : α → Option β} {l : List α} {bs : List β} (h : mapOpt f l = some bs) {b : β}
    (hb : b ∈ bs) : ∃ a ∈ l, f a = some b := by
  obtain ⟨k, hk⟩ := List.getElem?_of_mem hb
  rw [mapOpt_getElem? h k] at hk
  obtain ⟨a, h1, h2⟩ := Option.bind_eq_some_iff.1 hk
  exact ⟨a, List.mem_of_getElem? h1, h2⟩

theorem SameShapes_length {l l' : List (PVal F)} (h : PVal.SameShapes l l') : l.length = l'.length := by
  induction l generalizing l' with
  | nil => cases l' <;> simp [PVal.SameShapes] at h ⊢
  | cons a l ih =>
    cases l' with
    | nil => simp [PVal.SameShapes] at h
    | cons b l' => rw [PVal.SameShapes] at h; simp [ih h.2]

theorem SameShapes_get {l l' : List (PVal F)} (h : PVal.SameShapes l l') {k : Nat} {a b : PVal F} (ha : l[k]? = some a)
    (hb : l'[k]? = some b) : PVal.SameShape a b := by
  induction l generalizing l' k with
  | nil => simp at ha
  | cons x l ih =>
    cases l' with
    | nil => simp [PVal.SameShapes] at h
    | cons y l' =>
      rw [PVal.SameShapes] at h
      cases k with
      | zero => simp at ha hb; subst ha hb; exact h.1
      | succ k => simp at ha hb; exact ih h.2 ha hb

theorem pick_sameShape : ∀ (ks : List (Option Int)) {v v' w w' : PVal F}, PVal.SameShape v v' → pick ks v = some w →
    pick ks v' = some w' → PVal.SameShape w w'
  | [], v, v', w, w', h, h1, h2 => by cases h1; cases h2; exact h
  | some k :: ks, v, v', w, w', h, h1, h2 => by
    simp only [pick, Option.bind_eq_some_iff] at h1 h2
    obtain ⟨u, h3, h4⟩ := h1
    obtain ⟨u', h5, h6⟩ := h2
    refine pick_sameShape ks ?_ h4 h6
    cases v with
    | arr l =>
      cases v' with
      | arr l' =>
        rw [PVal.SameShape] at h
        simp only [element] at h3 h5
        rw [← SameShapes_length h] at h5
        exact SameShapes_get h h3 h5
      | _ => simp [element] at h5
    | _ => simp [element] at h3
  | none :: ks, v, v', w, w', h, h1, h2 => by
    cases v with
    | arr l =>
      cases v' with
      | arr l' =>
        rw [PVal.SameShape] at h
        simp only [pick, Option.map_eq_some_iff] at h1 h2
        obtain ⟨us, h3, rfl⟩ := h1
        obtain ⟨us', h4, rfl⟩ := h2
        rw [PVal.SameShape]
        induction l generalizing l' us us' with
        | nil =>
          cases l' with
          | nil => cases h3; cases h4; simp [PVal.SameShapes]
          | cons _ _ => simp [PVal.SameShapes] at h
        | cons a l ih =>
          cases l' with
          | nil => simp [PVal.SameShapes] at h
          | cons b l' =>
            rw [PVal.SameShapes] at h
            simp only [mapOpt, Option.bind_eq_some_iff, Option.some.injEq] at h3 h4
            obtain ⟨x, hx, xs, hxs, rfl⟩ := h3
            obtain ⟨y, hy, ys, hys, rfl⟩ := h4
            rw [PVal.SameShapes]
            exact ⟨pick_sameShape ks h.1 hx hy, ih l' h.2 xs hxs ys hys⟩
      | _ => simp [pick] at h2
    | _ => simp [pick] at h1

theorem sameShape_rows {e : Expr F} {sub : Layout} (hI : RegularExt I) {env : Env (D F)} (hE : RegularEnv env)
    (hr : RegularConsts e) {vs : List (D F)} {ws : List (PVal F)} (h1 : run I e env = some (.vec vs))
    (h2 : mapOpt (view sub) vs = some ws) : ∀ a ∈ ws, ∀ b ∈ ws, PVal.SameShape a b := by
  refine (rectangular_rows h2).1 ?_
  have := run_regular hI e hr env _ hE h1
  cases this with
  | vec hu _ => exact hu

/-- The number of elements of an array, as it is inferred. -/
theorem size_steady {B : Sym → Prop} {c : Nat} {e : Expr F} {sub : Layout} (he : Usable B c e) (hI : RegularExt I)
    {env : Env (D F)} (hE : RegularEnv env) (hst : Steady I env e) {vs : List (D F)} {ws : List (PVal F)}
    (h1 : run I e env = some (.vec vs)) (h2 : mapOpt (view sub) vs = some ws) :
    ∃ n : Int, intValue I env (atZero (dimExpr e 0)) = some n ∧ n.toNat = ws.length := by
  obtain ⟨d0, h3, h4⟩ := hst _ h1
  cases d0 with
  | vec vs0 =>
    obtain ⟨n, h5, h6⟩ := size_of_array he hI hE h3
    refine ⟨n, h5, ?_⟩
    have := congrArg List.length (shape_vec h4)
    simp only [List.length_map] at this
    rw [h6, this, mapOpt_length h2]
  | _ => simp [Val.shape, Val.map] at h4

theorem getItem_spec (hI : RegularExt I) {B : Sym → Prop} : ∀ (items : List (Item F)) {x : Obj F} {c c' : Nat} {o : Obj F},
    (∀ i, B (.idx i) → i < c) → x.ok = true → x.Comp (Usable B c) → (∀ a, .at a ∈ items → Usable B c (wrap a)) →
    getItem items x c = some (o, c') →
    c ≤ c' ∧ o.ok = true ∧ o.Comp Scoped ∧
      (∀ j T, j < c → (∀ a, .at a ∈ items → Sym.idx j ∉ fv (wrap a) ∧ Sym.idx j ∉ binders (wrap a)) →
        x.Comp (ReadsOnly j T) → o.Comp (ReadsOnly j T)) ∧
      (∀ u, x.Comp (Occurs u) → o.Comp (Occurs u)) ∧
      (o.Comp fun e => ∀ s ∈ binders e, B s ∨ ∃ i, c ≤ i ∧ s = .idx i) ∧
      ∀ (env : Env (D F)) (ks : List (Option Int)) (v w : PVal F), RegularEnv env → x.Comp (Steady I env) →
        (∀ a, .at a ∈ items → (intValue I (zeroIdx env) (wrap a)).isSome) → value I env x = some v →
        mapOpt (itemValue I env) items = some ks → pick ks v = some w → value I env o = some w
  | [], x, c, c', o, _, hx, hu, _, h => by
    simp only [getItem, Option.some.injEq, Prod.mk.injEq] at h
    obtain ⟨rfl, rfl⟩ := h
    refine ⟨le_refl _, hx, comp_mono (fun e he => he.scoping) _ hu, fun j T _ _ hj => hj, fun u hu => hu,
      comp_mono (fun e he s hs => .inl (he.bound s hs)) _ hu, fun env ks v w _ _ _ hv hk hp => ?_⟩
    simp only [mapOpt, Option.some.injEq] at hk
    subst hk
    cases hp; exact hv
  | .at a :: rest, x, c, c', o, hB, hx, hu, hit, h => by
    cases x with
    | vec e sub =>
      simp only [getItem] at h
      have he : Usable B c e := by simpa [Obj.Comp] using hu
      have ha : Usable B c (wrap a) := hit a (by simp)
      have hsub : sub.ok = true := by simpa [Obj.ok] using hx
      obtain ⟨h1, h2, h3, h4, h8, h9, h5⟩ := getItem_spec hI rest hB (ok_unpack sub hsub _)
        (unpack_comp (fun _ h => h.fst) (fun _ h => h.snd) sub (he.get ha)) (fun b hb => hit b (by simp [hb])) h
      refine ⟨h1, h2, h3, fun j T hj hn hr => h4 j T hj (fun b hb => hn b (by simp [hb])) ?_,
        fun u hu' => h8 u (unpack_comp (fun _ h => occurs_fst h) (fun _ h => occurs_snd h) sub (occurs_get _ (by
          simpa [Obj.Comp] using hu'))), h9, ?_⟩
      · have hre : ReadsOnly j T e := by simpa [Obj.Comp] using hr
        obtain ⟨hn1, hn2⟩ := hn a (by simp)
        refine unpack_comp (fun _ h => h.fst) (fun _ h => h.snd) sub
          (hre.get (ReadsOnly.of_absent hn2 hn1) fun τ us heq => hn1 ?_)
        rw [heq]
        exact mem_fv.2 ⟨.inl rfl, Finset.notMem_empty _⟩
      · intro env ks v w hE hst hz hv hk hp
        simp only [mapOpt, Option.bind_eq_some_iff, Option.some.injEq] at hk
        obtain ⟨k, hk1, ks', hk2, rfl⟩ := hk
        simp only [itemValue, Option.map_eq_some_iff] at hk1
        obtain ⟨k, hk1, rfl⟩ := hk1
        simp only [pick, Option.bind_eq_some_iff] at hp
        obtain ⟨u, hp1, hp2⟩ := hp
        cases v with
        | arr ws =>
          obtain ⟨e', sub', vs, heq, _, h6, h7⟩ := value_arr hx hv
          cases heq
          have hse : Steady I env e := by simpa [Obj.Comp] using hst
          obtain ⟨k0, hk0⟩ := Option.isSome_iff_exists.1 (hz a (by simp))
          exact h5 env ks' u w hE (unpack_comp (fun _ h => h.fst) (fun _ h => h.snd) sub (hse.get hI hE he.regular hk0))
            (fun b hb => hz b (by simp [hb])) ((value_read hsub h6 h7 hk1).trans hp1) hk2 hp2
        | _ => simp [element] at hp1
    | _ => simp [getItem] at h
  | .all :: rest, x, c, c', o, hB, hx, hu, hit, h => by
    cases x with
    | vec e sub =>
      simp only [getItem] at h
      have he : Usable B c e := by simpa [Obj.Comp] using hu
      have hsub : sub.ok = true := by simpa [Obj.ok] using hx
      have hBc : ¬ B (.idx c) := fun hb => absurd (hB c hb) (by omega)
      obtain ⟨r, c1, hr⟩ : ∃ r c1, getItem rest (unpack sub (Phi.get e (at_ c))) (c + 1) = some (r, c1) := by
        have h' := h
        simp only [arrayPy, Option.bind_eq_some_iff, List.range'_one, List.map] at h'
        obtain ⟨⟨r, c1⟩, h1, _⟩ := h'
        exact ⟨r, c1, h1⟩
      obtain ⟨h1, h2, h3, h4, h8, h9, h5⟩ := getItem_spec hI rest (c := c + 1) (fun i hi => by have := hB i hi; omega)
        (ok_unpack sub hsub _) (unpack_comp (fun _ h => h.fst) (fun _ h => h.snd) sub
          ((he.mono (Nat.le_succ c)).get (usable_at hBc)))
        (fun b hb => (hit b (by simp [hb])).mono (Nat.le_succ c)) hr
      have hreads : r.Comp (ReadsOnly c [e]) := h4 c [e] (by omega) (fun b hb => by
          have := hit b (by simp [hb])
          exact ⟨fun hf => absurd (this.old _ hf) (by omega), fun hf => hBc (this.bound _ hf)⟩)
        (unpack_comp (fun _ h => h.fst) (fun _ h => h.snd) sub ((he.readsOnly hBc [e]).at (by simp)))
      obtain ⟨l, _, hl, _⟩ := packsTo I r h2
      obtain ⟨g1, g2, g3, g4, g5, g7, g8, g6⟩ := arrayPy_one (I := I) (f := fun is => match is with
        | [.scalar i] => getItem rest (unpack sub (Phi.get e (wrap i)))
        | _ => fun _ => none) hr h2 hl h3 hreads h
      refine ⟨by omega, g2, g4, fun j T hj hn hr' => g5 j T (by omega) ?_,
        fun u hu' => g7 u (h8 u (unpack_comp (fun _ h => occurs_fst h) (fun _ h => occurs_snd h) sub (occurs_get _ (by
          simpa [Obj.Comp] using hu')))),
        g8 {s | B s ∨ ∃ i, c ≤ i ∧ s = .idx i} (comp_mono (fun e' he' s hs => (he' s hs).imp_right fun ⟨i, hi, e1⟩ =>
          ⟨i, by omega, e1⟩) _ h9) (.inr ⟨c, le_refl _, rfl⟩), ?_⟩
      · have hre : ReadsOnly j T e := by simpa [Obj.Comp] using hr'
        refine h4 j T (by omega) (fun b hb => hn b (by simp [hb])) (unpack_comp (fun _ h => h.fst) (fun _ h => h.snd) sub
          (hre.get (ReadsOnly.of_absent ?_ ?_) ?_))
        · intro hb
          rcases mem_binders.1 hb with hb | ⟨t, ht, _⟩
          · cases hb
          · cases ht
        · intro hb
          rcases (mem_fv.1 hb).1 with hb | ⟨t, ht, _⟩
          · cases hb; omega
          · cases ht
        · intro τ us heq
          simp only [at_, Term.node.injEq, Head.store.injEq, Sym.idx.injEq] at heq
          omega
      · intro env ks v w hE hst hz hv hk hp
        simp only [mapOpt, Option.bind_eq_some_iff, Option.some.injEq, itemValue, exists_eq_left'] at hk
        obtain ⟨ks', hk2, rfl⟩ := hk
        cases v with
        | arr ws =>
          simp only [pick, Option.map_eq_some_iff] at hp
          obtain ⟨us, hp, rfl⟩ := hp
          obtain ⟨e', sub', vs, heq, _, h6, h7⟩ := value_arr hx hv
          cases heq
          have hse : Steady I env e := by simpa [Obj.Comp] using hst
          obtain ⟨n, hn1, hn2⟩ := size_steady he hI hE hse h6 h7
          have hlen := mapOpt_length hp
          refine g6 env n (fun X hX => by rw [List.mem_singleton.1 hX]; exact hn1) us ?_ ?_
          · rw [hn2, ← hlen]
            refine mapOpt_range fun k hkl => ?_
            have hkw : k < ws.length := by omega
            obtain ⟨u, hu1⟩ : ∃ u, us[k]? = some u := ⟨_, List.getElem?_eq_getElem hkl⟩
            rw [hu1]
            have hp' := hu1
            rw [mapOpt_getElem? hp] at hp'
            obtain ⟨y, hy1, hy2⟩ := Option.bind_eq_some_iff.1 hp'
            refine h5 _ ks' y u (hE.set _ (.sc _)) (unpack_comp (fun _ h => h.fst) (fun _ h => h.snd) sub ?_) (fun b hb => ?_)
              ((value_rows hsub he h6 h7 hkw).trans hy1) ?_ hy2
            · refine (hse.set he.scoping (fun hf => absurd (he.old _ hf) (by omega)) _).get hI (hE.set _ (.sc _))
                he.regular (k0 := 0) ?_
              exact intValue_at_zero _ _
            · rw [zeroIdx_set]; exact hz b (by simp [hb])
            · rw [← hk2]
              refine mapOpt_congr fun i hi => ?_
              cases i with
              | all => rfl
              | «at» b =>
                simp only [itemValue, intValue]
                rw [run_set_new (hit b (by simp [hi]))]
          · intro a ha b hb
            obtain ⟨x, hx1, hx2⟩ := mapOpt_source hp ha
            obtain ⟨y, hy1, hy2⟩ := mapOpt_source hp hb
            exact pick_sameShape ks' (sameShape_rows hI hE he.regular h6 h7 x hx1 y hy1) hx2 hy2
        | _ => simp [pick] at hp
    | _ => simp [getItem] at h

/-- C39, `x[items]` with indices and `:`: the value of the result, if the library accepts the expression, is the slice of the
value of `x`, with indices clamped to the bounds. -/
theorem C39_slice (hI : RegularExt I) {B : Sym → Prop} {items : List (Item F)} {x o : Obj F} {c c' : Nat}
    (hB : ∀ i, B (.idx i) → i < c) (hx : x.ok = true) (hu : x.Comp (Usable B c)) {env : Env (D F)} (hE : RegularEnv env)
    (hst : x.Comp (Steady I env)) (hit : ∀ i ∈ items, UsableItem I B c env i) (h : getItem items x c = some (o, c'))
    {ks : List (Option Int)} {v w : PVal F} (hv : value I env x = some v) (hk : mapOpt (itemValue I env) items = some ks)
    (hp : pick ks v = some w) : value I env o = some w :=
  (getItem_spec hI items hB hx hu (fun a ha => (hit _ ha).1) h).2.2.2.2.2.2 env ks v w hE hst (fun a ha => (hit _ ha).2) hv hk hp

/-- The number of dimensions of an array, up to the first record. -/
def dims : Layout → Nat
  | .vec sub => dims sub + 1
  | _ => 0

theorem new_bound {B : Sym → Prop} {c : Nat} {X : Expr F} (hX : Usable B c X) {o : Obj F}
    (h : o.Comp fun e => ∀ s ∈ binders e, B s ∨ ∃ i, c + 1 ≤ i ∧ s = .idx i) : o.Comp fun e => ∀ s ∈ fv X, s ∉ binders e :=
  comp_mono (fun e he s hs hb => by
    rcases he s hb with h | ⟨i, hi, rfl⟩
    · exact hX.free s hs h
    · have := hX.old i hs; omega) o h

/-- C39, `x[items]` is accepted if there are no more items than dimensions. -/
theorem C39_slice_defined (hI : RegularExt I) {B : Sym → Prop} : ∀ (items : List (Item F)) {x : Obj F} {c : Nat} {l : Layout},
    (∀ i, B (.idx i) → i < c) → x.ok = true → x.Comp (Usable B c) → (∀ a, .at a ∈ items → Usable B c (wrap a)) →
    build x = some l → items.length ≤ dims l → ∃ o c', getItem items x c = some (o, c')
  | [], x, c, l, _, _, _, _, _, _ => ⟨x, c, rfl⟩
  | i :: rest, x, c, l, hB, hx, hu, hit, hb, hd => by
    obtain ⟨e, sub, rfl⟩ : ∃ e sub, x = .vec e sub := by
      cases x with
      | vec e sub => exact ⟨e, sub, rfl⟩
      | scalar a => simp only [build, Option.some.injEq] at hb; subst hb; simp [dims] at hd
      | raw _ _ => simp [Obj.ok] at hx
      | struct k fs =>
        cases fs <;> cases k <;> simp only [build, Option.some.injEq, Option.map_eq_some_iff, reduceCtorEq] at hb
        · subst hb; simp [dims] at hd
        all_goals
          obtain ⟨_, _, rfl⟩ := hb
          simp [dims] at hd
    simp only [build, Option.some.injEq] at hb
    subst hb
    simp only [dims, List.length_cons] at hd
    have he : Usable B c e := by simpa [Obj.Comp] using hu
    have hsub : sub.ok = true := by simpa [Obj.ok] using hx
    have hBc : ¬ B (.idx c) := fun hb => absurd (hB c hb) (by omega)
    cases i with
    | «at» a =>
      simp only [getItem]
      exact C39_slice_defined hI rest hB (ok_unpack sub hsub _) (unpack_comp (fun _ h => h.fst) (fun _ h => h.snd) sub
        (he.get (hit a (by simp)))) (fun b hb => hit b (by simp [hb])) (build_unpack sub hsub _) (by omega)
    | all =>
      have hB' : ∀ i, B (.idx i) → i < c + 1 := fun i hi => by have := hB i hi; omega
      have hcu := unpack_comp (fun _ h => Usable.fst h) (fun _ h => h.snd) sub
        ((he.mono (Nat.le_succ c)).get (usable_at hBc))
      have hit' : ∀ a, .at a ∈ rest → Usable B (c + 1) (wrap a) := fun b hb => (hit b (by simp [hb])).mono (Nat.le_succ c)
      obtain ⟨r, c1, hr⟩ := C39_slice_defined hI rest (c := c + 1) hB' (ok_unpack sub hsub _) hcu hit'
        (build_unpack sub hsub _) (by omega)
      obtain ⟨h1, h2, h3, h4, h8, h9, _⟩ := getItem_spec hI rest (c := c + 1) hB' (ok_unpack sub hsub _) hcu hit' hr
      obtain ⟨o, ho⟩ := arrayPy_defined I (f := fun is => match is with
        | [.scalar i] => getItem rest (unpack sub (Phi.get e (wrap i)))
        | _ => fun _ => none) hr h2 (h8 _ (unpack_comp (fun _ h => occurs_fst h) (fun _ h => occurs_snd h) sub (.refl _)))
        he.scoping (fun hf => absurd (he.old _ hf) (by omega)) (new_bound he h9)
      exact ⟨o, c1, ho⟩

/-! ### `where` -/

/-- What `where` returns for parts `t` and `f`. -/
structure Chosen (I : Ext F) (B : Sym → Prop) (cond : Expr F) (l : Layout) (t f o : Obj F) (c c' : Nat) : Prop where
  le : c ≤ c'
  ok : o.ok = true
  layout : build o = some l
  scoping : o.Comp Scoped
  reads : ∀ j T, j < c → ReadsOnly j T cond → t.Comp (ReadsOnly j T) → f.Comp (ReadsOnly j T) → o.Comp (ReadsOnly j T)
  occurs : ∀ u, t.Comp (Occurs u) → o.Comp (Occurs u)
  bound : o.Comp fun e => ∀ s ∈ binders e, B s ∨ ∃ i, c ≤ i ∧ s = .idx i
  value : ∀ (env : Env (D F)) b tv fv, RegularEnv env → run I cond env = some (.sc (.b b)) → t.Comp (Steady I env) →
    f.Comp (Steady I env) → value I env t = some tv → Frontend.value I env f = some fv → Alike tv fv → t.Comp (Sized I env) →
    f.Comp (Sized I env) →
    Frontend.value I env o = some (if b then tv else fv)

/-- The same for the fields of records. -/
structure ChosenFields (I : Ext F) (B : Sym → Prop) (cond : Expr F) (l : LFields) (t f o : Fields F) (c c' : Nat) : Prop where
  le : c ≤ c'
  ok : o.ok = true
  layout : buildFields o = some l
  scoping : o.Comp Scoped
  reads : ∀ j T, j < c → ReadsOnly j T cond → t.Comp (ReadsOnly j T) → f.Comp (ReadsOnly j T) → o.Comp (ReadsOnly j T)
  occurs : ∀ u, t.Comp (Occurs u) → o.Comp (Occurs u)
  bound : o.Comp fun e => ∀ s ∈ binders e, B s ∨ ∃ i, c ≤ i ∧ s = .idx i
  value : ∀ (env : Env (D F)) b tv fv, RegularEnv env → run I cond env = some (.sc (.b b)) → t.Comp (Steady I env) →
    f.Comp (Steady I env) → valueFields I env t = some tv → valueFields I env f = some fv → AlikeFields tv fv →
    t.Comp (Sized I env) → f.Comp (Sized I env) → valueFields I env o = some (if b then tv else fv)

theorem whereLab_pos (cond : ScalarLike F) (O O' : Obj F) : ∀ (ts fs : Fields F) (lfs : LFields) (c : Nat),
    buildFields ts = some lfs → buildFields fs = some lfs →
    (∀ n o, (n, o) ∈ (namesOf ts).zip ts.toList → getName n O = some o) →
    (∀ n o, (n, o) ∈ (namesOf fs).zip fs.toList → getName n O' = some o) →
    whereLab cond lfs O O' c = wherePos cond lfs ts.toList fs.toList c
  | .nil, fs, lfs, c, hb, hb', _, _ => by
    simp only [buildFields, Option.some.injEq] at hb
    subst hb
    cases fs with
    | nil => simp [whereLab, wherePos, Fields.toList]
    | cons n o rest => simp [buildFields, Option.bind_eq_some_iff] at hb'
  | .cons n o rest, fs, lfs, c, hb, hb', h, h' => by
    simp only [buildFields, Option.bind_eq_some_iff, Option.map_eq_some_iff] at hb
    obtain ⟨l, _, lr, hr, rfl⟩ := hb
    cases fs with
    | nil => simp [buildFields] at hb'
    | cons n' o' rest' =>
      simp only [buildFields, Option.bind_eq_some_iff, Option.map_eq_some_iff, LFields.cons.injEq] at hb'
      obtain ⟨l', _, lr', hr', rfl, rfl, rfl⟩ := hb'
      rw [whereLab, Fields.toList, Fields.toList, wherePos, h n' o (by simp [namesOf, Fields.toList]), Option.bind_some,
        h' n' o' (by simp [namesOf, Fields.toList]), Option.bind_some]
      congr 1
      funext r
      rw [whereLab_pos cond O O' rest rest' lr' r.2 hr hr' (fun m x hm => h m x (by simp [namesOf, Fields.toList, hm]))
        (fun m x hm => h' m x (by simp [namesOf, Fields.toList, hm]))]

theorem run_where {cond t f : Expr F} {env : Env (D F)} {b : Bool} {x y : Scal F} (hc : run I cond env = some (.sc (.b b)))
    (ht : run I t env = some (.sc x)) (hf : run I f env = some (.sc y)) (hk : x.kind = y.kind) :
    run I (node (.op .where_) [cond, t, f]) env = some (.sc (if b then x else y)) := by
  rw [run_node]
  simp only [List.map, runDen, hc, ht, hf]
  cases x <;> cases y <;> simp [Scal.kind] at hk <;> cases b <;> rfl

theorem build_struct {k : RecKind} {subs : LFields} (hk : okNames k subs.names = true) {o : Obj F} (ho : o.ok = true)
    (h : build o = some (.struct k subs)) : ∃ fs, o = .struct k fs ∧ buildFields fs = some subs ∧ fs.ok = true ∧
      okNames k (namesOf fs) = true := by
  cases o with
  | struct k' fs =>
    simp only [Obj.ok, Bool.and_eq_true] at ho
    cases fs with
    | nil => exact absurd rfl (okNames_ne ho.1)
    | cons n o rest =>
      have : (buildFields (.cons n o rest)).map (Layout.struct k') = some (.struct k subs) := by
        cases k' <;> simpa [build] using h
      obtain ⟨lfs, h1, h2⟩ := Option.map_eq_some_iff.1 this
      simp only [Layout.struct.injEq] at h2
      obtain ⟨rfl, rfl⟩ := h2
      exact ⟨_, rfl, h1, ho.2, ho.1⟩
  | raw _ _ => simp [Obj.ok] at ho
  | scalar _ => simp [build] at h
  | vec _ _ => simp [build] at h

theorem chosen_struct {B : Sym → Prop} {cond : Expr F} {k : RecKind} {subs : LFields} (hk : okNames k subs.names = true) {ts fs os : Fields F}
    {c c' : Nat} (h : ChosenFields I B cond subs ts fs os c c') :
    Chosen I B cond (.struct k subs) (.struct k ts) (.struct k fs) (.struct k os) c c' := by
  have hn := buildFields_names h.layout
  refine ⟨h.le, ?_, ?_, by simpa [Obj.Comp] using h.scoping, fun j T hj hc ht hf => ?_, fun u hu => ?_,
    by simpa [Obj.Comp] using h.bound, ?_⟩
  · simp only [Obj.ok, Bool.and_eq_true]
    exact ⟨by rw [← hn]; exact hk, h.ok⟩
  · cases os with
    | nil => exact absurd hn (okNames_ne hk)
    | cons n o rest => cases k <;> rw [build, h.layout] <;> rfl
  · simp only [Obj.Comp] at ht hf ⊢
    exact h.reads j T hj hc ht hf
  · simp only [Obj.Comp] at hu ⊢
    exact h.occurs u hu
  · intro env b tv fv hE hc hst hsf htv hfv hal hzt hzf
    simp only [Obj.Comp] at hst hsf hzt hzf
    simp only [Frontend.value, Option.map_eq_some_iff] at htv hfv
    obtain ⟨tvs, h1, rfl⟩ := htv
    obtain ⟨fvs, h2, rfl⟩ := hfv
    simp only [Alike] at hal
    simp only [Frontend.value, h.value env b tvs fvs hE hc hst hsf h1 h2 hal.2 hzt hzf]
    cases b <;> rfl

mutual
theorem where_spec (hI : RegularExt I) {B : Sym → Prop} {cond : ScalarLike F} : ∀ (l : Layout) {t f o : Obj F} {c c' : Nat},
    (∀ i, B (.idx i) → i < c) → l.ok = true → t.ok = true → f.ok = true → build t = some l → build f = some l →
    Usable B c (wrap cond) → t.Comp (Usable B c) → f.Comp (Usable B c) → whereL cond l t f c = some (o, c') →
    Chosen I B (wrap cond) l t f o c c'
  | .atom, t, f, o, c, c', hB, hl, htok, hfok, hbt, hbf, hcu, htu, hfu, h => by
    simp only [whereL, Option.map_eq_some_iff, Prod.mk.injEq] at h
    obtain ⟨o', h, rfl, rfl⟩ := h
    cases t with
    | scalar a =>
      cases f with
      | scalar a' =>
        simp only [whereAtom, Option.some.injEq] at h
        subst h
        simp only [Obj.Comp] at htu hfu
        refine ⟨le_refl _, by simp [Obj.ok], by simp [build], ?_, fun j T hj hc ht hf => ?_, fun u hu => ?_, ?_, ?_⟩
        · simp only [Obj.Comp]
          change Scoped (node (.op .where_) [wrap cond, wrap a, wrap a'])
          refine .node (fun _ _ _ _ => Finset.disjoint_empty_left _) ?_
          simp [hcu.scoping, htu.scoping, hfu.scoping]
        · simp only [Obj.Comp] at ht hf ⊢
          change ReadsOnly j T (node (.op .where_) [wrap cond, wrap a, wrap a'])
          exact ReadsOnly.node (by simp) (Finset.notMem_empty _) (by simp [hc, ht, hf])
        · simp only [Obj.Comp] at hu ⊢
          exact .child (by simp) hu
        · simp only [Obj.Comp]
          intro s hs
          have hs : s ∈ binders (node (.op .where_) [wrap cond, wrap a, wrap a']) := hs
          rcases mem_binders.1 hs with hy | ⟨x, hx, hy⟩
          · cases hy
          · simp only [List.mem_cons, List.not_mem_nil, or_false] at hx
            rcases hx with rfl | rfl | rfl
            · exact .inl (hcu.bound _ hy)
            · exact .inl (htu.bound _ hy)
            · exact .inl (hfu.bound _ hy)
        · intro env b tv fv hE hc _ _ htv hfv hal _ _
          simp only [Frontend.value, Option.bind_eq_some_iff] at htv hfv
          obtain ⟨d, h1, h2⟩ := htv
          obtain ⟨d', h3, h4⟩ := hfv
          cases d <;> simp [view] at h2
          cases d' <;> simp [view] at h4
          subst h2 h4
          simp only [Alike] at hal
          simp only [Frontend.value]
          change (run I (node (.op .where_) [wrap cond, wrap a, wrap a']) env).bind _ = _
          rw [run_where hc h1 h3 hal]
          cases b <;> rfl
      | _ => simp [whereAtom] at h
    | _ => simp [whereAtom] at h
  | .vec sub, t, f, o, c, c', hB, hl, htok, hfok, hbt, hbf, hcu, htu, hfu, h => by
    have hsub : sub.ok = true := by simpa [Layout.ok] using hl
    cases t with
    | vec te ts =>
      cases f with
      | vec fe fs =>
        simp only [build, Option.some.injEq, Layout.vec.injEq] at hbt hbf
        have hbt := hbt.symm
        have hbf := hbf.symm
        subst hbt hbf
        have hte : Usable B c te := by simpa [Obj.Comp] using htu
        have hfe : Usable B c fe := by simpa [Obj.Comp] using hfu
        have hBc : ¬ B (.idx c) := fun hb => absurd (hB c hb) (by omega)
        simp only [whereL] at h
        obtain ⟨r, c1, hr⟩ : ∃ r c1, whereL cond sub (unpack sub (Phi.get te (at_ c))) (unpack sub (Phi.get fe (at_ c))) (c + 1)
            = some (r, c1) := by
          have h' := h
          simp only [arrayPy, Option.bind_eq_some_iff, List.range'_one, List.map] at h'
          obtain ⟨⟨r, c1⟩, h1, _⟩ := h'
          exact ⟨r, c1, h1⟩
        have ih := where_spec hI sub (c := c + 1) (fun i hi => by have := hB i hi; omega) hsub (ok_unpack sub hsub _)
          (ok_unpack sub hsub _) (build_unpack sub hsub _) (build_unpack sub hsub _) (hcu.mono (Nat.le_succ c))
          (unpack_comp (fun _ h => h.fst) (fun _ h => h.snd) sub ((hte.mono (Nat.le_succ c)).get (usable_at hBc)))
          (unpack_comp (fun _ h => h.fst) (fun _ h => h.snd) sub ((hfe.mono (Nat.le_succ c)).get (usable_at hBc))) hr
        have hreads : r.Comp (ReadsOnly c [te, fe]) := ih.reads c [te, fe] (by omega) (hcu.readsOnly hBc _)
          (unpack_comp (fun _ h => h.fst) (fun _ h => h.snd) sub ((hte.readsOnly hBc _).at (by simp)))
          (unpack_comp (fun _ h => h.fst) (fun _ h => h.snd) sub ((hfe.readsOnly hBc _).at (by simp)))
        obtain ⟨g1, g2, g3, g4, g5, g7, g8, g6⟩ := arrayPy_one (I := I) (f := fun is => match is with
          | [.scalar i] => whereL cond sub (unpack sub (Phi.get te (wrap i))) (unpack sub (Phi.get fe (wrap i)))
          | _ => fun _ => none) hr ih.ok ih.layout ih.scoping hreads h
        have hle := ih.le
        refine ⟨by omega, g2, g3, g4, fun j T hj hc ht hf => g5 j T (by omega) (ih.reads j T (by omega) hc ?_ ?_),
          fun u hu' => g7 u (ih.occurs u (unpack_comp (fun _ h => occurs_fst h) (fun _ h => occurs_snd h) sub
            (occurs_get _ (by simpa [Obj.Comp] using hu')))),
          g8 {s | B s ∨ ∃ i, c ≤ i ∧ s = .idx i} (comp_mono (fun e' he' s hs => (he' s hs).imp_right fun ⟨i, hi, e1⟩ =>
            ⟨i, by omega, e1⟩) _ ih.bound) (.inr ⟨c, le_refl _, rfl⟩), ?_⟩
        · exact unpack_comp (fun _ h => h.fst) (fun _ h => h.snd) sub (ReadsOnly.get_at (by simpa [Obj.Comp] using ht) hj)
        · exact unpack_comp (fun _ h => h.fst) (fun _ h => h.snd) sub (ReadsOnly.get_at (by simpa [Obj.Comp] using hf) hj)
        · intro env b tv fv hE hc hst hsf htv hfv hal hzt hzf
          have hste : Steady I env te := by simpa [Obj.Comp] using hst
          have hsfe : Steady I env fe := by simpa [Obj.Comp] using hsf
          cases tv with
          | arr tws =>
            cases fv with
            | arr fws =>
              obtain ⟨_, _, tvs, heq, _, t1, t2⟩ := value_arr htok htv
              cases heq
              obtain ⟨_, _, fvs, heq, _, f1, f2⟩ := value_arr hfok hfv
              cases heq
              simp only [Alike] at hal
              have hlen := hal.length
              obtain ⟨n, n1, n2⟩ := size_steady hte hI hE hste t1 t2
              obtain ⟨m, m1, m2⟩ := size_steady hfe hI hE hsfe f1 f2
              have hn0 : 0 ≤ n := (by simpa [Obj.Comp] using hzt : Sized I env te) n n1
              have hm0 : 0 ≤ m := (by simpa [Obj.Comp] using hzf : Sized I env fe) m m1
              have hmn : m = n := by omega
              subst hmn
              have hw : (if b = true then PVal.arr tws else PVal.arr fws) = .arr (if b then tws else fws) := by cases b <;> rfl
              rw [hw]
              have hlen' : (if b then tws else fws).length = tws.length := by cases b <;> simp [hlen]
              refine g6 env m (fun X hX => ?_) _ ?_ ?_
              · simp only [List.mem_cons, List.not_mem_nil, or_false] at hX
                rcases hX with rfl | rfl
                · exact n1
                · exact m1
              · rw [n2, ← hlen']
                refine mapOpt_range fun k hkl => ?_
                have hk1 : k < tws.length := by omega
                have hk2 : k < fws.length := by omega
                have e1 := List.getElem?_eq_getElem hk1
                have e2 := List.getElem?_eq_getElem hk2
                rw [ih.value _ b _ _ (hE.set _ (.sc _)) ((run_set_new hcu env _).trans hc)
                  (unpack_comp (fun _ h => h.fst) (fun _ h => h.snd) sub ((hste.set hte.scoping (fun hf => absurd
                    (hte.old _ hf) (by omega)) _).get hI (hE.set _ (.sc _)) hte.regular (intValue_at_zero _ _)))
                  (unpack_comp (fun _ h => h.fst) (fun _ h => h.snd) sub ((hsfe.set hfe.scoping (fun hf => absurd
                    (hfe.old _ hf) (by omega)) _).get hI (hE.set _ (.sc _)) hfe.regular (intValue_at_zero _ _)))
                  ((value_rows hsub hte t1 t2 hk1).trans e1) ((value_rows hsub hfe f1 f2 hk2).trans e2)
                  (hal.get e1 e2) (unpack_comp (fun _ _ => Sized.fst) (fun _ _ => Sized.snd) sub Sized.get)
                  (unpack_comp (fun _ _ => Sized.fst) (fun _ _ => Sized.snd) sub Sized.get)]
                cases b
                · exact e2.symm
                · exact e1.symm
              · cases b
                · exact sameShape_rows hI hE hfe.regular f1 f2
                · exact sameShape_rows hI hE hte.regular t1 t2
            | _ => simp [Alike] at hal
          | sc s =>
            simp only [Frontend.value, Option.bind_eq_some_iff] at htv
            obtain ⟨d, _, h2⟩ := htv
            cases d <;> simp [view] at h2
          | record k fs =>
            simp only [Frontend.value, Option.bind_eq_some_iff] at htv
            obtain ⟨d, _, h2⟩ := htv
            cases d <;> simp [view] at h2
      | _ => simp [whereL] at h
    | _ => simp [whereL] at h
  | .struct .positional subs, t, f, o, c, c', hB, hl, htok, hfok, hbt, hbf, hcu, htu, hfu, h => by
    simp only [Layout.ok, Bool.and_eq_true] at hl
    obtain ⟨ts, rfl, t1, t2, t3⟩ := build_struct hl.1 htok hbt
    obtain ⟨fs, rfl, f1, f2, f3⟩ := build_struct hl.1 hfok hbf
    simp only [whereL, Option.map_eq_some_iff, Prod.mk.injEq] at h
    obtain ⟨⟨os, c1⟩, h, rfl, rfl⟩ := h
    exact chosen_struct hl.1 (where_specFields hI subs hB hl.2 t2 f2 t1 f1 hcu (by simpa [Obj.Comp] using htu)
      (by simpa [Obj.Comp] using hfu) h)
  | .struct .dict subs, t, f, o, c, c', hB, hl, htok, hfok, hbt, hbf, hcu, htu, hfu, h => by
    simp only [Layout.ok, Bool.and_eq_true] at hl
    obtain ⟨ts, rfl, t1, t2, t3⟩ := build_struct hl.1 htok hbt
    obtain ⟨fs, rfl, f1, f2, f3⟩ := build_struct hl.1 hfok hbf
    simp only [whereL, Option.map_eq_some_iff, Prod.mk.injEq] at h
    obtain ⟨⟨os, c1⟩, h, rfl, rfl⟩ := h
    rw [whereLab_pos cond _ _ ts fs subs c t1 f1 (fun n o hm => getName_of (by simp) t3 hm)
      (fun n o hm => getName_of (by simp) f3 hm)] at h
    exact chosen_struct hl.1 (where_specFields hI subs hB hl.2 t2 f2 t1 f1 hcu (by simpa [Obj.Comp] using htu)
      (by simpa [Obj.Comp] using hfu) h)
  | .struct (.data k) subs, t, f, o, c, c', hB, hl, htok, hfok, hbt, hbf, hcu, htu, hfu, h => by
    simp only [Layout.ok, Bool.and_eq_true] at hl
    obtain ⟨ts, rfl, t1, t2, t3⟩ := build_struct hl.1 htok hbt
    obtain ⟨fs, rfl, f1, f2, f3⟩ := build_struct hl.1 hfok hbf
    simp only [whereL, Option.map_eq_some_iff, Prod.mk.injEq] at h
    obtain ⟨⟨os, c1⟩, h, rfl, rfl⟩ := h
    rw [whereLab_pos cond _ _ ts fs subs c t1 f1 (fun n o hm => getName_of (by simp) t3 hm)
      (fun n o hm => getName_of (by simp) f3 hm)] at h
    exact chosen_struct hl.1 (where_specFields hI subs hB hl.2 t2 f2 t1 f1 hcu (by simpa [Obj.Comp] using htu)
      (by simpa [Obj.Comp] using hfu) h)
theorem where_specFields (hI : RegularExt I) {B : Sym → Prop} {cond : ScalarLike F} : ∀ (l : LFields) {t f o : Fields F}
    {c c' : Nat}, (∀ i, B (.idx i) → i < c) → l.ok = true → t.ok = true → f.ok = true → buildFields t = some l →
    buildFields f = some l → Usable B c (wrap cond) → t.Comp (Usable B c) → f.Comp (Usable B c) →
    wherePos cond l t.toList f.toList c = some (o, c') → ChosenFields I B (wrap cond) l t f o c c'
  | .nil, t, f, o, c, c', hB, hl, htok, hfok, hbt, hbf, hcu, htu, hfu, h => by
    cases t with
    | nil =>
      cases f with
      | nil =>
        simp only [wherePos, Fields.toList, Option.some.injEq, Prod.mk.injEq] at h
        obtain ⟨rfl, rfl⟩ := h
        refine ⟨le_refl _, by simp [Fields.ok], by simp [buildFields], by simp [Fields.Comp], fun _ _ _ _ _ _ => by
          simp [Fields.Comp], fun _ _ => by simp [Fields.Comp], by simp [Fields.Comp], ?_⟩
        intro env b tv fv _ _ _ _ htv hfv _ _ _
        simp only [valueFields, Option.some.injEq] at htv hfv
        subst htv hfv
        cases b <;> rfl
      | cons n o rest => simp [Fields.toList, wherePos] at h
    | cons n o rest => simp [Fields.toList, wherePos] at h
  | .cons n l rest, t, f, o, c, c', hB, hl, htok, hfok, hbt, hbf, hcu, htu, hfu, h => by
    simp only [LFields.ok, Bool.and_eq_true] at hl
    cases t with
    | nil => simp [Fields.toList, wherePos] at h
    | cons tn t1 ts =>
      cases f with
      | nil => simp [Fields.toList, wherePos] at h
      | cons fn f1 fs =>
        simp only [buildFields, Option.bind_eq_some_iff, Option.map_eq_some_iff, LFields.cons.injEq] at hbt hbf
        obtain ⟨l1, bt1, r1, bt2, rfl, e1, e2⟩ := hbt
        obtain ⟨l2, bf1, r2, bf2, rfl, e3, e4⟩ := hbf
        rw [e1] at bt1; rw [e2] at bt2; rw [e3] at bf1; rw [e4] at bf2
        simp only [Fields.ok, Bool.and_eq_true] at htok hfok
        simp only [Fields.Comp] at htu hfu
        simp only [Fields.toList, wherePos, Option.bind_eq_some_iff, Option.map_eq_some_iff, Prod.mk.injEq] at h
        obtain ⟨⟨r, c1⟩, h1, ⟨q, c2⟩, h2, rfl, rfl⟩ := h
        have i1 := where_spec hI l hB hl.1 htok.1 hfok.1 bt1 bf1 hcu htu.1 hfu.1 h1
        have hle := i1.le
        have i2 := where_specFields hI rest (fun i hi => lt_of_lt_of_le (hB i hi) hle) hl.2 htok.2 hfok.2 bt2 bf2
          (hcu.mono hle) (fields_mono (fun _ h => Usable.mono h hle) _ htu.2) (fields_mono (fun _ h => Usable.mono h hle) _ hfu.2) h2
        refine ⟨le_trans hle i2.le, by simp [Fields.ok, i1.ok, i2.ok], by simp [buildFields, i1.layout, i2.layout],
          by simp [Fields.Comp, i1.scoping, i2.scoping], fun j T hj hc ht hf => ?_, fun u hu => ?_, ?_, ?_⟩
        · simp only [Fields.Comp] at ht hf ⊢
          exact ⟨i1.reads j T hj hc ht.1 hf.1, i2.reads j T (lt_of_lt_of_le hj hle) hc ht.2 hf.2⟩
        · simp only [Fields.Comp] at hu ⊢
          exact ⟨i1.occurs u hu.1, i2.occurs u hu.2⟩
        · simp only [Fields.Comp]
          exact ⟨i1.bound, fields_mono (fun e' he' s hs => (he' s hs).imp_right fun ⟨i, hi, e1⟩ => ⟨i, by omega, e1⟩) _ i2.bound⟩
        · intro env b tv fv hE hc hst hsf htv hfv hal hzt hzf
          simp only [Fields.Comp] at hst hsf hzt hzf
          simp only [valueFields, Option.bind_eq_some_iff, Option.map_eq_some_iff] at htv hfv
          obtain ⟨tv1, v1, tv2, v2, rfl⟩ := htv
          obtain ⟨fv1, v3, fv2, v4, rfl⟩ := hfv
          simp only [AlikeFields] at hal
          simp only [valueFields, i1.value env b _ _ hE hc hst.1 hsf.1 v1 v3 hal.2.1 hzt.1 hzf.1,
            i2.value env b _ _ hE hc hst.2 hsf.2 v2 v4 hal.2.2 hzt.2 hzf.2]
          cases b <;> rfl
end

mutual
theorem where_defined (hI : RegularExt I) {B : Sym → Prop} {cond : ScalarLike F} : ∀ (l : Layout) {t f : Obj F} {c : Nat},
    (∀ i, B (.idx i) → i < c) → l.ok = true → t.ok = true → f.ok = true → build t = some l → build f = some l →
    Usable B c (wrap cond) → t.Comp (Usable B c) → f.Comp (Usable B c) → ∃ o c', whereL cond l t f c = some (o, c')
  | .atom, t, f, c, hB, hl, htok, hfok, hbt, hbf, hcu, htu, hfu => by
    have key : ∀ x : Obj F, x.ok = true → build x = some .atom → ∃ a, x = .scalar a := by
      intro x hx hb
      cases x with
      | scalar a => exact ⟨a, rfl⟩
      | vec _ _ => simp [build] at hb
      | raw _ _ => simp [Obj.ok] at hx
      | struct k fs =>
        cases fs <;> cases k <;> simp [build] at hb
    obtain ⟨a, rfl⟩ := key t htok hbt
    obtain ⟨a', rfl⟩ := key f hfok hbf
    exact ⟨_, _, by simp only [whereL, whereAtom, Option.map_some]; rfl⟩
  | .vec sub, t, f, c, hB, hl, htok, hfok, hbt, hbf, hcu, htu, hfu => by
    have hsub : sub.ok = true := by simpa [Layout.ok] using hl
    have key : ∀ x : Obj F, x.ok = true → build x = some (.vec sub) → ∃ e, x = .vec e sub := by
      intro x hx hb
      cases x with
      | scalar a => simp [build] at hb
      | vec e s => simp only [build, Option.some.injEq, Layout.vec.injEq] at hb; exact ⟨e, by rw [hb]⟩
      | raw _ _ => simp [Obj.ok] at hx
      | struct k fs =>
        cases fs <;> cases k <;> simp [build] at hb
    obtain ⟨te, rfl⟩ := key t htok hbt
    obtain ⟨fe, rfl⟩ := key f hfok hbf
    have hte : Usable B c te := by simpa [Obj.Comp] using htu
    have hfe : Usable B c fe := by simpa [Obj.Comp] using hfu
    have hBc : ¬ B (.idx c) := fun hb => absurd (hB c hb) (by omega)
    have hB' : ∀ i, B (.idx i) → i < c + 1 := fun i hi => by have := hB i hi; omega
    have ht' := unpack_comp (fun _ h => Usable.fst h) (fun _ h => h.snd) sub ((hte.mono (Nat.le_succ c)).get (usable_at hBc))
    have hf' := unpack_comp (fun _ h => Usable.fst h) (fun _ h => h.snd) sub ((hfe.mono (Nat.le_succ c)).get (usable_at hBc))
    obtain ⟨r, c1, hr⟩ := where_defined hI (cond := cond) sub (c := c + 1) hB' hsub (ok_unpack sub hsub _)
      (ok_unpack sub hsub _) (build_unpack sub hsub _) (build_unpack sub hsub _) (hcu.mono (Nat.le_succ c)) ht' hf'
    have hch := where_spec hI sub (c := c + 1) hB' hsub (ok_unpack sub hsub _)
      (ok_unpack sub hsub _) (build_unpack sub hsub _) (build_unpack sub hsub _) (hcu.mono (Nat.le_succ c)) ht' hf' hr
    obtain ⟨o, ho⟩ := arrayPy_defined I (f := fun is => match is with
        | [.scalar i] => whereL cond sub (unpack sub (Phi.get te (wrap i))) (unpack sub (Phi.get fe (wrap i)))
        | _ => fun _ => none) hr hch.ok (hch.occurs _ (unpack_comp (fun _ h => occurs_fst h) (fun _ h => occurs_snd h) sub
          (.refl _))) hte.scoping (fun hf => absurd (hte.old _ hf) (by omega)) (new_bound hte hch.bound)
    exact ⟨o, c1, by rw [whereL]; exact ho⟩
  | .struct .positional subs, t, f, c, hB, hl, htok, hfok, hbt, hbf, hcu, htu, hfu => by
    simp only [Layout.ok, Bool.and_eq_true] at hl
    obtain ⟨ts, rfl, t1, t2, t3⟩ := build_struct hl.1 htok hbt
    obtain ⟨fs, rfl, f1, f2, f3⟩ := build_struct hl.1 hfok hbf
    obtain ⟨os, c1, h⟩ := where_definedFields hI (cond := cond) subs hB hl.2 t2 f2 t1 f1 hcu (by simpa [Obj.Comp] using htu)
      (by simpa [Obj.Comp] using hfu)
    exact ⟨_, _, by rw [whereL, h]; rfl⟩
  | .struct .dict subs, t, f, c, hB, hl, htok, hfok, hbt, hbf, hcu, htu, hfu => by
    simp only [Layout.ok, Bool.and_eq_true] at hl
    obtain ⟨ts, rfl, t1, t2, t3⟩ := build_struct hl.1 htok hbt
    obtain ⟨fs, rfl, f1, f2, f3⟩ := build_struct hl.1 hfok hbf
    obtain ⟨os, c1, h⟩ := where_definedFields hI (cond := cond) subs hB hl.2 t2 f2 t1 f1 hcu (by simpa [Obj.Comp] using htu)
      (by simpa [Obj.Comp] using hfu)
    rw [← whereLab_pos cond _ _ ts fs subs c t1 f1 (fun n o hm => getName_of (by simp) t3 hm)
      (fun n o hm => getName_of (by simp) f3 hm)] at h
    exact ⟨_, _, by rw [whereL, h]; rfl⟩
  | .struct (.data k) subs, t, f, c, hB, hl, htok, hfok, hbt, hbf, hcu, htu, hfu => by
    simp only [Layout.ok, Bool.and_eq_true] at hl
    obtain ⟨ts, rfl, t1, t2, t3⟩ := build_struct hl.1 htok hbt
    obtain ⟨fs, rfl, f1, f2, f3⟩ := build_struct hl.1 hfok hbf
    obtain ⟨os, c1, h⟩ := where_definedFields hI (cond := cond) subs hB hl.2 t2 f2 t1 f1 hcu (by simpa [Obj.Comp] using htu)
      (by simpa [Obj.Comp] using hfu)
    rw [← whereLab_pos cond _ _ ts fs subs c t1 f1 (fun n o hm => getName_of (by simp) t3 hm)
      (fun n o hm => getName_of (by simp) f3 hm)] at h
    exact ⟨_, _, by rw [whereL, h]; rfl⟩
theorem where_definedFields (hI : RegularExt I) {B : Sym → Prop} {cond : ScalarLike F} : ∀ (l : LFields) {t f : Fields F}
    {c : Nat}, (∀ i, B (.idx i) → i < c) → l.ok = true → t.ok = true → f.ok = true → buildFields t = some l →
    buildFields f = some l → Usable B c (wrap cond) → t.Comp (Usable B c) → f.Comp (Usable B c) →
    ∃ o c', wherePos cond l t.toList f.toList c = some (o, c')
  | .nil, t, f, c, hB, hl, htok, hfok, hbt, hbf, hcu, htu, hfu => by
    have key : ∀ x : Fields F, buildFields x = some .nil → x = .nil := by
      intro x hx
      cases x with
      | nil => rfl
      | cons n o r => simp [buildFields, Option.bind_eq_some_iff] at hx
    rw [key t hbt, key f hbf]
    exact ⟨_, _, by simp [Fields.toList, wherePos]; exact ⟨rfl, rfl⟩⟩
  | .cons n l rest, t, f, c, hB, hl, htok, hfok, hbt, hbf, hcu, htu, hfu => by
    simp only [LFields.ok, Bool.and_eq_true] at hl
    cases t with
    | nil => simp [buildFields] at hbt
    | cons tn t1 ts =>
      cases f with
      | nil => simp [buildFields] at hbf
      | cons fn f1 fs =>
        simp only [buildFields, Option.bind_eq_some_iff, Option.map_eq_some_iff, LFields.cons.injEq] at hbt hbf
        obtain ⟨l1, bt1, r1, bt2, rfl, e1, e2⟩ := hbt
        obtain ⟨l2, bf1, r2, bf2, rfl, e3, e4⟩ := hbf
        rw [e1] at bt1; rw [e2] at bt2; rw [e3] at bf1; rw [e4] at bf2
        simp only [Fields.ok, Bool.and_eq_true] at htok hfok
        simp only [Fields.Comp] at htu hfu
        obtain ⟨o1, c1, h1⟩ := where_defined hI (cond := cond) l hB hl.1 htok.1 hfok.1 bt1 bf1 hcu htu.1 hfu.1
        have hle := (where_spec hI l hB hl.1 htok.1 hfok.1 bt1 bf1 hcu htu.1 hfu.1 h1).le
        obtain ⟨o2, c2, h2⟩ := where_definedFields hI (cond := cond) rest (fun i hi => lt_of_lt_of_le (hB i hi) hle) hl.2 htok.2
          hfok.2 bt2 bf2 (hcu.mono hle) (fields_mono (fun _ h => Usable.mono h hle) _ htu.2)
          (fields_mono (fun _ h => Usable.mono h hle) _ hfu.2)
        exact ⟨_, _, by simp only [Fields.toList, wherePos, h1, Option.bind_some, h2, Option.map_some]; rfl⟩
end

/-- C39, `where(cond, t, f)` is accepted if `t` and `f` have the same layout. -/
theorem C39_where_defined (hI : RegularExt I) {B : Sym → Prop} {cond : ScalarLike F} {t f : Obj F} {c : Nat}
    (hB : ∀ i, B (.idx i) → i < c) (ht : t.ok = true) (hf : f.ok = true) (hl : build t = build f)
    (hcu : Usable B c (wrap cond)) (htu : t.Comp (Usable B c)) (hfu : f.Comp (Usable B c)) :
    ∃ o c', wherePy cond t f c = some (o, c') := by
  obtain ⟨l, _, h4, h5, _⟩ := packsTo I t ht
  simp only [wherePy, ← hl, h4, Option.bind_some, if_true]
  exact where_defined hI l hB h5 ht hf h4 (hl ▸ h4) hcu htu hfu

/-- C39, `where(cond, t, f)` for arrays and records: the value of the result is that of `t` or that of `f`. Both have the
same shape and the same kinds of numbers. -/
theorem C39_where (hI : RegularExt I) {B : Sym → Prop} {cond : ScalarLike F} {t f o : Obj F} {c c' : Nat}
    (hB : ∀ i, B (.idx i) → i < c) (ht : t.ok = true) (hf : f.ok = true) (hcu : Usable B c (wrap cond)) (htu : t.Comp (Usable B c))
    (hfu : f.Comp (Usable B c)) (h : wherePy cond t f c = some (o, c')) {env : Env (D F)} (hE : RegularEnv env)
    (hst : t.Comp (Steady I env)) (hsf : f.Comp (Steady I env)) {b : Bool} {tv fv : PVal F}
    (hc : value I env (.scalar cond) = some (.sc (.b b))) (htv : value I env t = some tv) (hfv : value I env f = some fv)
    (hal : Alike tv fv) (hzt : t.Comp (Sized I env)) (hzf : f.Comp (Sized I env)) : value I env o = some (if b then tv else fv) := by
  simp only [wherePy, Option.bind_eq_some_iff] at h
  obtain ⟨l', h1, l, h2, h3⟩ := h
  split at h3
  · rename_i heq
    subst heq
    obtain ⟨l', _, h4, h5, _⟩ := packsTo I t ht
    cases h1.symm.trans h4
    refine (where_spec hI l hB h5 ht hf h1 h2 hcu htu hfu h3).value env b tv fv hE ?_ hst hsf htv hfv hal hzt hzf
    simp only [value, Option.bind_eq_some_iff] at hc
    obtain ⟨d, h6, h7⟩ := hc
    cases d <;> simp [view] at h7
    subst h7; exact h6
  · cases h3

/-! ### `assume` -/

/-- C39, `x.assume(y)`: the value of `x`, wherever `y` has a value. -/
theorem C39_assume {x y : Obj F} (hx : (∃ a, x = .scalar a) ∨ ∃ e sub, x = .vec e sub) (hy : y.ok = true) :
    ∃ o, assumePy x y = some o ∧ (∀ env v, value I env o = some v → value I env x = some v) ∧
      ∀ env v w, value I env x = some v → value I env y = some w → value I env o = some v := by
  obtain ⟨l, e, h1, _, h2, h3⟩ := packsTo I y hy
  have key : ∀ (s : Expr F) (k : Layout) env v, (run I (Phi.fst (Phi.cons s e)) env).bind (view k) = some v →
      (run I s env).bind (view k) = some v := by
    intro s k env v h
    rw [Frontend.run_fst, Frontend.run_cons] at h
    cases hs : run I s env with
    | none => rw [hs] at h; simp [consOf, fstOf] at h
    | some d =>
      cases he : run I e env with
      | none => rw [hs, he] at h; simp [consOf, fstOf] at h
      | some d' => rw [hs, he] at h; exact h
  have key' : ∀ (s : Expr F) (k : Layout) env v w, (run I s env).bind (view k) = some v → value I env y = some w →
      (run I (Phi.fst (Phi.cons s e)) env).bind (view k) = some v := by
    intro s k env v w hv hw
    rw [h3] at hw
    obtain ⟨d', he, _⟩ := Option.bind_eq_some_iff.1 hw
    obtain ⟨d, hs, hd⟩ := Option.bind_eq_some_iff.1 hv
    rw [Frontend.run_fst, Frontend.run_cons, hs, he]
    exact hd
  rcases hx with ⟨a, rfl⟩ | ⟨s, sub, rfl⟩
  · refine ⟨.scalar (.scalar (Phi.fst (Phi.cons (wrap a) e))), by simp [assumePy, h1, h2], fun env v => ?_, fun env v w => ?_⟩
    · simp only [value]; exact key _ _ env v
    · simp only [value]; exact key' _ _ env v w
  · refine ⟨.vec (Phi.fst (Phi.cons s e)) sub, by simp [assumePy, h1, h2], fun env v => ?_, fun env v w => ?_⟩
    · simp only [value]; exact key _ _ env v
    · simp only [value]; exact key' _ _ env v w

/-! ### Examples -/

namespace C39Example
open Verif.Toy C38Example

theorem regular_noExt : RegularExt (noExt : Ext Int) := fun _ _ _ h => by cases h

/-- Variables are usable. -/
theorem usable_var (v : Nat) (τ : Ty) : Usable (fun _ => False) 5 (var v τ : Expr Int) where
  scoping := .node (fun _ _ ht _ => by simp at ht) (by simp)
  free := fun _ _ h => h
  bound := fun s hs => by
    rcases mem_binders.1 hs with h | ⟨t, ht, _⟩
    · cases h
    · cases ht
  old := fun i hi => by
    rcases (mem_fv.1 hi).1 with h | ⟨t, ht, _⟩
    · cases h
    · cases ht
  regular := by
    unfold var
    rw [Phi.regularConsts_node]
    exact ⟨fun v τ he => (by cases he), fun t ht => (by cases ht)⟩

theorem steady_var (env : Env (D Int)) (v : Nat) (τ : Ty) : Steady noExt env (var v τ) :=
  Steady.of_closed (usable_var v τ).scoping fun i hi => by
    rcases (mem_fv.1 hi).1 with h | ⟨t, ht, _⟩
    · cases h
    · cases ht

theorem sized_var (env : Env (D Int)) (v : Nat) (τ : Ty) : Sized noExt env (var v τ) := by
  intro n hn
  rw [var, dimExpr_other (by simp) (by simp)] at hn
  exact dim_nonneg hn

def ptTy : Ty := .pair (.scalar .int) (.scalar .int)

/-- `m`, a table of points -/
def table : Obj Int := .vec (var 0 (.vector (.vector ptTy))) (.vec xyLayout)
def tableEnv : Env (D Int) := envOf [(0, .vec [.vec [pt 1 10, pt 2 20], .vec [pt 3 30, pt 4 40], .vec [pt 5 50, pt 6 60]]),
  (1, .int 1)]

theorem tableEnv_regular : RegularEnv tableEnv := regular_env_of (by decide +kernel)

/-- `m[:, j]` is a column, for `j` a variable. -/
example : ∃ o c, getItem [.all, .at (.scalar (ivar 1))] table 5 = some (o, c) ∧
    value noExt tableEnv o = some (.arr [pxy 2 20, pxy 4 40, pxy 6 60]) := by
  have hu : table.Comp (Usable (fun _ => False) 5) := by simpa [table, Obj.Comp] using usable_var 0 _
  obtain ⟨o, c, h⟩ := C39_slice_defined regular_noExt (B := fun _ => False) [.all, .at (.scalar (ivar 1))] (x := table) (c := 5)
    (fun _ h => h.elim) (by decide +kernel) hu (fun a ha => by
      simp only [List.mem_cons, List.not_mem_nil, or_false, reduceCtorEq, false_or, Item.at.injEq] at ha
      rw [ha]; exact usable_var 1 _) rfl (by decide +kernel)
  refine ⟨o, c, h, C39_slice regular_noExt (fun _ h => h.elim) (by decide +kernel) hu tableEnv_regular
    (by simpa [table, Obj.Comp] using steady_var _ 0 _) (fun i hi => ?_) h (ks := [none, some 1])
    (v := .arr [.arr [pxy 1 10, pxy 2 20], .arr [pxy 3 30, pxy 4 40], .arr [pxy 5 50, pxy 6 60]]) (by decide +kernel)
    (by decide +kernel) (by decide +kernel)⟩
  simp only [List.mem_cons, List.not_mem_nil, or_false] at hi
  rcases hi with rfl | rfl
  · exact trivial
  · exact ⟨usable_var 1 _, by decide +kernel⟩

/-- Records of an array of points and a number. -/
def boxed (v : Nat) : Obj Int :=
  .struct (.data 3) (.cons "ps" (.vec (var v (.vector ptTy)) xyLayout) (.cons "n" (.scalar (.scalar (ivar (v + 1)))) .nil))
def pbox (ps : List (PVal Int)) (n : Int) : PVal Int := .record (.data 3) [("ps", .arr ps), ("n", num n)]
def boxEnv : Env (D Int) := envOf [(0, .vec [pt 1 10, pt 2 20]), (1, .int 7), (2, .vec [pt 3 30, pt 4 40]), (3, .int 8),
  (4, .sc (.b false))]

theorem boxed_comp {P : Expr Int → Prop} (h : ∀ v τ, P (var v τ)) (v : Nat) : (boxed v).Comp P := by
  simp only [boxed, Obj.Comp, Fields.Comp]
  exact ⟨h _ _, h _ _, trivial⟩

/-- `where(c, p, q)` for records of arrays of records. -/
example : ∃ o c, wherePy (.scalar (var 4 (.scalar .bool))) (boxed 0) (boxed 2) 5 = some (o, c) ∧
    value noExt boxEnv o = some (pbox [pxy 3 30, pxy 4 40] 8) := by
  obtain ⟨o, c, h⟩ := C39_where_defined regular_noExt (B := fun _ => False) (cond := .scalar (var 4 (.scalar .bool)))
    (t := boxed 0) (f := boxed 2) (c := 5) (fun _ h => h.elim) (by decide +kernel) (by decide +kernel) rfl (usable_var 4 _)
    (boxed_comp usable_var 0) (boxed_comp usable_var 2)
  exact ⟨o, c, h, C39_where regular_noExt (fun _ h => h.elim) (by decide +kernel) (by decide +kernel) (usable_var 4 _)
    (boxed_comp usable_var 0) (boxed_comp usable_var 2) h (regular_env_of (by decide +kernel))
    (boxed_comp (steady_var _) 0) (boxed_comp (steady_var _) 2) (b := false) (tv := pbox [pxy 1 10, pxy 2 20] 7)
    (fv := pbox [pxy 3 30, pxy 4 40] 8) (by decide +kernel) (by decide +kernel) (by decide +kernel)
    (by simp [Alike, AlikeList, AlikeFields, pbox, pxy, num, Scal.kind])
    (boxed_comp (sized_var _) 0) (boxed_comp (sized_var _) 2)⟩

/-- `array(lambda i: i, size=n)`, an array whose size was given -/
def given (n : Int) : Obj Int := .vec (vec 0 (int n) (at_ 0)) .atom
/-- `xs` -/
def plain : Obj Int := .vec (var 0 (.vector (.scalar .int))) .atom

/-- C39, sizes that are negative: `array(lambda i: i, size=-1)` and `xs` are both empty, but `where` of them, which compares
the sizes, is not defined. -/
theorem C39_where_counterexample : ∃ o c, wherePy (.bool true) (given (-1)) plain 5 = some (o, c) ∧
    value noExt (envOf [(0, .vec [])]) (given (-1)) = some (.arr []) ∧ value noExt (envOf [(0, .vec [])]) plain = some (.arr []) ∧
    value noExt (envOf [(0, .vec [])]) o = none := by
  obtain ⟨⟨o, c⟩, h, h'⟩ := Toy.exists_of_any (o := wherePy (.bool true) (given (-1)) plain 5)
    (q := fun r => (value noExt (envOf [(0, .vec [])]) r.1).isNone = true) (by decide +kernel)
  exact ⟨o, c, h, by decide +kernel, by decide +kernel, by simpa using h'⟩

/-- `xs.assume(n)` -/
example : ∃ o, assumePy plain (.scalar (.int 3)) = some o ∧ value noExt (envOf [(0, ints [4, 5])]) o = some (.arr [num 4, num 5]) := by
  obtain ⟨o, h, _, h2⟩ := C39_assume (I := noExt) (x := plain) (y := .scalar (.int 3)) (.inr ⟨_, _, rfl⟩) (by decide +kernel)
  exact ⟨o, h, h2 _ _ (num 3) (by decide +kernel) (by decide +kernel)⟩

end C39Example

end Verif.Props
