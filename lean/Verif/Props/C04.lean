import Verif.Codegen.Clip
import Verif.Toy

/-! C04: recognition of clipped shifts never changes the position read. -/

namespace Verif.Props
open Verif.Phi Verif.Term Verif.Codegen
variable {F : Type} [FloatOps F] (I : Ext F)

/-! ### Specification -/

/-- `min(max(k + shift, low), high)`, where parts that are not there do nothing. -/
def clipValue (k : Int) (shift low high : Option Int) : Int :=
  let x := match shift with | some d => k + d | none => k
  let x := match low with | some l => max x l | none => x
  match high with | some h => min x h | none => x

/-- The integer value of a part, if it is there; fails if the part has no integer value. -/
def partValue (env : Env (D F)) : Option (Expr F) → Option (Option Int)
  | none => some none
  | some e => ((run I e env).bind Val.asInt).map some

/-- The value of a recognised form when the index is `k`. -/
def formValue (env : Env (D F)) (k : Int) (t : Clip F) : Option Int :=
  (partValue I env t.1).bind fun d => (partValue I env t.2.1).bind fun lo =>
    (partValue I env t.2.2).bind fun hi => some (clipValue k d lo hi)

/-! ### Proof -/

theorem run_op2_eq (o : ScalarOp) (a b : Expr F) (env : Env (D F)) :
    run I (op2 o a b) env = opOf o [run I a env, run I b env] := by
  rw [op2, run_node]; rfl

/-- The integer of an operand. -/
def iv (env : Env (D F)) (e : Expr F) : Option Int := (run I e env).bind Val.asInt

theorem opOf_int {o : ScalarOp} {f : Int → Int → Int}
    (h1 : ∀ x y, applyOp (F := F) o [.i x, .i y] = some (.i (f x y)))
    (h2 : ∀ x (s : Scal F), s.kind ≠ .int → applyOp o [.i x, s] = none)
    (x : Option Int) (y : Option (D F)) :
    opOf o [x.map Val.int, y] = ((x.bind fun x => (y.bind Val.asInt).map (f x)).map Val.int) := by
  cases x with
  | none => rfl
  | some x =>
    match y with
    | none => rfl
    | some (.vec _) => rfl
    | some (.pair _ _) => rfl
    | some (.sc (.i y)) => simp [opOf, mapOpt, Val.asScal, Val.asInt, h1]
    | some (.sc (.b y)) => simp [opOf, mapOpt, Val.asScal, Val.asInt, h2 x (.b y) (by simp [Scal.kind])]
    | some (.sc (.f y)) => simp [opOf, mapOpt, Val.asScal, Val.asInt, h2 x (.f y) (by simp [Scal.kind])]

theorem opOf_int' {o : ScalarOp} {f : Int → Int → Int}
    (h1 : ∀ x y, applyOp (F := F) o [.i x, .i y] = some (.i (f x y)))
    (h2 : ∀ x (s : Scal F), s.kind ≠ .int → applyOp o [s, .i x] = none)
    (x : Option Int) (y : Option (D F)) :
    opOf o [y, x.map Val.int] = ((x.bind fun x => (y.bind Val.asInt).map (f · x)).map Val.int) := by
  cases x with
  | none => cases y with
    | none => rfl
    | some y => cases y <;> rfl
  | some x =>
    match y with
    | none => rfl
    | some (.vec _) => rfl
    | some (.pair _ _) => rfl
    | some (.sc (.i y)) => simp [opOf, mapOpt, Val.asScal, Val.asInt, h1]
    | some (.sc (.b y)) => simp [opOf, mapOpt, Val.asScal, Val.asInt, h2 x (.b y) (by simp [Scal.kind])]
    | some (.sc (.f y)) => simp [opOf, mapOpt, Val.asScal, Val.asInt, h2 x (.f y) (by simp [Scal.kind])]

theorem iv_op {o : ScalarOp} {f : Int → Int → Int}
    (h1 : ∀ x y, applyOp (F := F) o [.i x, .i y] = some (.i (f x y)))
    (h2 : ∀ s t u : Scal F, applyOp o [s, t] = some u → u.kind = .int → s.kind = .int ∧ t.kind = .int)
    (env : Env (D F)) (a b : Expr F) :
    iv I env (op2 o a b) = (iv I env a).bind fun x => (iv I env b).map (f x) := by
  unfold iv
  rw [run_op2_eq]
  match ha : run I a env with
  | none => rfl
  | some (.vec _) => rfl
  | some (.pair _ _) => rfl
  | some (.sc s) =>
    match hb : run I b env with
    | none => cases s <;> rfl
    | some (.vec _) => cases s <;> rfl
    | some (.pair _ _) => cases s <;> rfl
    | some (.sc t) =>
      simp only [opOf, mapOpt, Option.bind_some, Val.asScal]
      cases hu : applyOp o [s, t] with
      | none =>
        cases s <;> cases t <;> simp_all [Val.asInt]
      | some u =>
        cases u with
        | i x =>
          obtain ⟨hs, ht⟩ := h2 s t _ hu rfl
          cases s <;> cases t <;> simp_all [Val.asInt, Scal.kind]
        | b x => cases s <;> cases t <;> simp_all [Val.asInt, Scal.kind]
        | f x => cases s <;> cases t <;> simp_all [Val.asInt, Scal.kind]

theorem iv_add (env : Env (D F)) (a b : Expr F) :
    iv I env (op2 .add a b) = (iv I env a).bind fun x => (iv I env b).map (x + ·) := by
  refine iv_op I (fun _ _ => rfl) (fun s t u h hk => ?_) env a b
  cases s <;> cases t <;> simp [applyOp] at h <;> subst h <;> simp_all [Scal.kind]

theorem iv_min (env : Env (D F)) (a b : Expr F) :
    iv I env (op2 .min a b) = (iv I env a).bind fun x => (iv I env b).map (min x) := by
  refine iv_op I (fun _ _ => rfl) (fun s t u h hk => ?_) env a b
  cases s <;> cases t <;> simp [applyOp] at h <;> subst h <;> simp_all [Scal.kind]

theorem iv_max (env : Env (D F)) (a b : Expr F) :
    iv I env (op2 .max a b) = (iv I env a).bind fun x => (iv I env b).map (max x) := by
  refine iv_op I (fun _ _ => rfl) (fun s t u h hk => ?_) env a b
  cases s <;> cases t <;> simp [applyOp] at h <;> subst h <;> simp_all [Scal.kind]

theorem kind_none {o : ScalarOp} (ho : o = .add ∨ o = .subtract ∨ o = .min ∨ o = .max) (x : Int)
    (s : Scal F) (h : s.kind ≠ .int) : applyOp o [.i x, s] = none ∧ applyOp o [s, .i x] = none := by
  rcases ho with rfl | rfl | rfl | rfl <;> cases s <;> simp_all [applyOp, Scal.kind]

theorem partValue_some (env : Env (D F)) (e : Expr F) :
    partValue I env (some e) = (iv I env e).map some := rfl

/-- Adding an operand to a form without clipping. -/
theorem form_add {env : Env (D F)} {k : Int} {t t' : Clip F} {other : Expr F}
    (h : clipAdd (some t) other = some t') :
    formValue I env k t' = (formValue I env k t).bind fun x => (iv I env other).map (x + ·) := by
  obtain ⟨d, lo, hi⟩ := t
  unfold clipAdd at h
  split at h
  · cases h
  · match lo, hi with
    | none, none =>
      simp only [Option.some.injEq] at h
      subst h
      cases d with
      | none =>
        simp only [formValue, partValue, Option.bind_some, clipValue]
        simp only [iv]
        cases (run I other env).bind Val.asInt <;> simp
      | some d =>
        simp only [formValue, partValue_some, iv_add, partValue.eq_1, Option.bind_some, clipValue]
        cases iv I env d <;> cases iv I env other <;> simp
        omega
    | some _, _ => simp at h
    | none, some _ => simp at h

theorem form_min {env : Env (D F)} {k : Int} {t t' : Clip F} {other : Expr F}
    (h : clipMin (some t) other = some t') :
    formValue I env k t' = (formValue I env k t).bind fun x => (iv I env other).map (min x) := by
  obtain ⟨d, lo, hi⟩ := t
  unfold clipMin at h
  split at h
  · cases h
  · simp only [Option.map_some, Option.some.injEq] at h
    subst h
    cases hi with
    | none =>
      simp only [formValue, partValue_some, partValue.eq_1, Option.bind_some, clipValue]
      cases partValue I env d <;> cases partValue I env lo <;> cases iv I env other <;> simp
    | some hi =>
      simp only [formValue, partValue_some, iv_min, clipValue]
      cases partValue I env d <;> cases partValue I env lo <;> cases iv I env other <;>
        cases iv I env hi <;> simp [min_assoc]

theorem form_max {env : Env (D F)} {k : Int} {t t' : Clip F} {other : Expr F}
    (h : clipMax (some t) other = some t') :
    formValue I env k t' = (formValue I env k t).bind fun x => (iv I env other).map (max x) := by
  obtain ⟨d, lo, hi⟩ := t
  unfold clipMax at h
  split at h
  · cases h
  · simp only [Option.map_some, Option.some.injEq] at h
    subst h
    cases hi with
    | none =>
      cases lo with
      | none =>
        simp only [formValue, partValue_some, partValue.eq_1, Option.bind_some, clipValue, Option.map_none]
        cases partValue I env d <;> cases iv I env other <;> simp
      | some lo =>
        simp only [formValue, partValue_some, partValue.eq_1, Option.bind_some, clipValue, Option.map_none,
          iv_max]
        cases partValue I env d <;> cases iv I env other <;> cases iv I env lo <;> simp [max_assoc]
    | some hi =>
      cases lo with
      | none =>
        simp only [formValue, partValue_some, partValue.eq_1, Option.bind_some, clipValue, Option.map_some,
          iv_max]
        cases partValue I env d <;> cases iv I env other <;> cases iv I env hi <;> simp
        omega
      | some lo =>
        simp only [formValue, partValue_some, clipValue, Option.map_some, iv_max]
        cases partValue I env d <;> cases iv I env other <;> cases iv I env hi <;> cases iv I env lo <;> simp
        omega

omit [FloatOps F] in
theorem idx_not_mem {i : Nat} {e : Expr F} (h : ¬ freeIndices e ≠ ∅) : Sym.idx i ∉ fv e := by
  intro hi
  simp only [ne_eq, not_not] at h
  have : Sym.idx i ∈ freeIndices e := Finset.mem_filter.2 ⟨hi, rfl⟩
  rw [h] at this
  simp at this

omit [FloatOps F] in
theorem mem_fv_op2 {o : ScalarOp} {i : Nat} {a b : Expr F} (h : Sym.idx i ∈ fv (node (.op o) [a, b])) :
    Sym.idx i ∈ fv a ∨ Sym.idx i ∈ fv b := by
  obtain ⟨h | ⟨t, ht, h'⟩, -⟩ := mem_fv.1 h
  · cases h
  · simp only [List.mem_cons, List.not_mem_nil, or_false] at ht
    rcases ht with rfl | rfl
    · exact .inl h'
    · exact .inr h'

omit [FloatOps F] in
theorem clipAdd_some {t : Option (Clip F)} {o : Expr F} {t' : Clip F} (h : clipAdd t o = some t') :
    ¬ freeIndices o ≠ ∅ ∧ ∃ u, t = some u := by
  unfold clipAdd at h
  split at h
  · cases h
  · rename_i hf
    cases t with
    | none => cases h
    | some u => exact ⟨hf, u, rfl⟩

omit [FloatOps F] in
theorem clipMin_some {t : Option (Clip F)} {o : Expr F} {t' : Clip F} (h : clipMin t o = some t') :
    ¬ freeIndices o ≠ ∅ ∧ ∃ u, t = some u := by
  unfold clipMin at h
  split at h
  · cases h
  · rename_i hf
    cases t with
    | none => cases h
    | some u => exact ⟨hf, u, rfl⟩

omit [FloatOps F] in
theorem clipMax_some {t : Option (Clip F)} {o : Expr F} {t' : Clip F} (h : clipMax t o = some t') :
    ¬ freeIndices o ≠ ∅ ∧ ∃ u, t = some u := by
  unfold clipMax at h
  split at h
  · cases h
  · rename_i hf
    cases t with
    | none => cases h
    | some u => exact ⟨hf, u, rfl⟩

omit [FloatOps F] in
theorem firstOpt_some {x y : Option (Clip F)} {t : Clip F} (h : firstOpt x y = some t) :
    x = some t ∨ y = some t := by
  cases x with
  | none => right; simpa [firstOpt] using h
  | some x => left; simpa [firstOpt] using h

theorem map_bind_comm (x y : Option Int) (f : Int → Int → Int) (hf : ∀ a b, f a b = f b a) :
    (x.bind fun x => y.map (f · x)) = x.bind fun x => y.map (f x) := by
  cases x <;> cases y <;> simp [hf]

theorem iv_negate (env : Env (D F)) (a : Expr F) :
    iv I env (op1 .negate a) = (iv I env a).map (- ·) := by
  unfold iv
  rw [op1, run_node]
  simp only [List.map, runDen]
  match run I a env with
  | none => rfl
  | some (.vec _) => rfl
  | some (.pair _ _) => rfl
  | some (.sc s) => cases s <;> rfl

/-- The main induction. -/
theorem matchClip_sound (i : Nat) (e : Expr F) : Sym.idx i ∈ fv e → ∀ t, matchClip (.idx i) e = some t →
    ∀ env k, env (.idx i) = some (.int k) →
      run I e env = (formValue I env k t).map Val.int := by
  induction e using ind with
  | step h ts ih =>
    intro hi t ht env k hk
    unfold matchClip at ht
    rw [para_node, clipStep] at ht
    simp only [List.map_map, Function.comp_def, List.map_id'] at ht
    rw [if_neg (by intro h0; rw [h0] at hi; simp at hi)] at ht
    unfold clipMatch at ht
    split at ht
    · rename_i s τ us
      split at ht
      · rename_i hs
        subst hs
        simp only [Option.some.injEq] at ht
        subst ht
        rw [run_node]
        show env _ = _
        rw [hk]
        rfl
      · cases ht
    · rename_i a' b' hab
      obtain ⟨a, b, rfl⟩ : ∃ a b, ts = [a, b] := by
        match ts, hab with
        | [a, b], _ => exact ⟨a, b, rfl⟩
      simp only [List.map_cons, List.map_nil, List.cons.injEq, and_true] at hab
      obtain ⟨rfl, rfl⟩ := hab
      have hor := mem_fv_op2 hi
      rw [← op2, run_op2_eq]
      rcases firstOpt_some ht with ht | ht
      · obtain ⟨hf, u, hu⟩ := clipAdd_some ht
        rw [hu] at ht
        rw [ih a (by simp) (hor.resolve_right (idx_not_mem hf)) u hu env k hk, form_add I ht,
          opOf_int (f := (· + ·)) (fun _ _ => rfl) (fun x s hs => (kind_none (.inl rfl) x s hs).1)]
        rfl
      · obtain ⟨hf, u, hu⟩ := clipAdd_some ht
        rw [hu] at ht
        rw [ih b (by simp) (hor.resolve_left (idx_not_mem hf)) u hu env k hk, form_add I ht,
          opOf_int' (f := (· + ·)) (fun _ _ => rfl) (fun x s hs => (kind_none (.inl rfl) x s hs).2),
          map_bind_comm _ _ _ (fun a b => Int.add_comm a b)]
        rfl
    · rename_i a' b' hab
      obtain ⟨a, b, rfl⟩ : ∃ a b, ts = [a, b] := by
        match ts, hab with
        | [a, b], _ => exact ⟨a, b, rfl⟩
      simp only [List.map_cons, List.map_nil, List.cons.injEq, and_true] at hab
      obtain ⟨rfl, rfl⟩ := hab
      have hor := mem_fv_op2 hi
      rw [← op2, run_op2_eq]
      rcases firstOpt_some ht with ht | ht
      · obtain ⟨hf, u, hu⟩ := clipAdd_some ht
        rw [hu] at ht
        have hb : Sym.idx i ∉ fv b := by
          intro hb
          exact idx_not_mem hf (mem_fv.2 ⟨.inr ⟨b, by simp, hb⟩, by simp [Lang.captured, Head.captured]⟩)
        rw [ih a (by simp) (hor.resolve_right hb) u hu env k hk, form_add I ht,
          opOf_int (f := (· - ·)) (fun _ _ => rfl) (fun x s hs => (kind_none (.inr (.inl rfl)) x s hs).1),
          iv_negate]
        cases formValue I env k u <;> simp only [iv] <;> cases (run I b env).bind Val.asInt <;> simp
        omega
      · obtain ⟨hf, u, hu⟩ := clipAdd_some ht
        have hb := hor.resolve_left (idx_not_mem hf)
        rw [if_neg] at hu
        · cases hu
        · intro h0
          have : Sym.idx i ∈ fv (op1 .negate b) :=
            mem_fv.2 ⟨.inr ⟨b, by simp, hb⟩, by simp [Lang.captured, Head.captured]⟩
          rw [h0] at this
          simp at this
    · rename_i a' b' hab
      obtain ⟨a, b, rfl⟩ : ∃ a b, ts = [a, b] := by
        match ts, hab with
        | [a, b], _ => exact ⟨a, b, rfl⟩
      simp only [List.map_cons, List.map_nil, List.cons.injEq, and_true] at hab
      obtain ⟨rfl, rfl⟩ := hab
      have hor := mem_fv_op2 hi
      rw [← op2, run_op2_eq]
      rcases firstOpt_some ht with ht | ht
      · obtain ⟨hf, u, hu⟩ := clipMin_some ht
        rw [hu] at ht
        rw [ih a (by simp) (hor.resolve_right (idx_not_mem hf)) u hu env k hk, form_min I ht,
          opOf_int (f := min) (fun _ _ => rfl) (fun x s hs => (kind_none (by simp) x s hs).1)]
        rfl
      · obtain ⟨hf, u, hu⟩ := clipMin_some ht
        rw [hu] at ht
        rw [ih b (by simp) (hor.resolve_left (idx_not_mem hf)) u hu env k hk, form_min I ht,
          opOf_int' (f := min) (fun _ _ => rfl) (fun x s hs => (kind_none (by simp) x s hs).2),
          map_bind_comm _ _ _ (fun a b => min_comm a b)]
        rfl
    · rename_i a' b' hab
      obtain ⟨a, b, rfl⟩ : ∃ a b, ts = [a, b] := by
        match ts, hab with
        | [a, b], _ => exact ⟨a, b, rfl⟩
      simp only [List.map_cons, List.map_nil, List.cons.injEq, and_true] at hab
      obtain ⟨rfl, rfl⟩ := hab
      have hor := mem_fv_op2 hi
      rw [← op2, run_op2_eq]
      rcases firstOpt_some ht with ht | ht
      · obtain ⟨hf, u, hu⟩ := clipMax_some ht
        rw [hu] at ht
        rw [ih a (by simp) (hor.resolve_right (idx_not_mem hf)) u hu env k hk, form_max I ht,
          opOf_int (f := max) (fun _ _ => rfl) (fun x s hs => (kind_none (by simp) x s hs).1)]
        rfl
      · obtain ⟨hf, u, hu⟩ := clipMax_some ht
        rw [hu] at ht
        rw [ih b (by simp) (hor.resolve_left (idx_not_mem hf)) u hu env k hk, form_max I ht,
          opOf_int' (f := max) (fun _ _ => rfl) (fun x s hs => (kind_none (by simp) x s hs).2),
          map_bind_comm _ _ _ (fun a b => max_comm a b)]
        rfl
    · cases ht

/-- No part mentions an index. -/
def PartsClosed (t : Clip F) : Prop :=
  (∀ p ∈ t.1, freeIndices p = ∅) ∧ (∀ p ∈ t.2.1, freeIndices p = ∅) ∧ (∀ p ∈ t.2.2, freeIndices p = ∅)

omit [FloatOps F] in
theorem freeIndices_op2 {o : ScalarOp} {a b : Expr F} (ha : freeIndices a = ∅) (hb : freeIndices b = ∅) :
    freeIndices (op2 o a b) = ∅ := by
  ext s
  simp only [freeIndices, Finset.mem_filter, Finset.notMem_empty, iff_false, not_and] at *
  intro hs hi
  obtain ⟨h | ⟨t, ht, h'⟩, -⟩ := mem_fv.1 hs
  · cases h
  · simp only [List.mem_cons, List.not_mem_nil, or_false] at ht
    rcases ht with rfl | rfl
    · exact absurd (Finset.mem_filter.2 ⟨h', hi⟩) (by rw [ha]; simp)
    · exact absurd (Finset.mem_filter.2 ⟨h', hi⟩) (by rw [hb]; simp)

omit [FloatOps F] in
theorem closed_add {t : Option (Clip F)} {o : Expr F} {t' : Clip F} (ht : ∀ u, t = some u → PartsClosed u)
    (h : clipAdd t o = some t') : PartsClosed t' := by
  unfold clipAdd at h
  split at h
  · cases h
  · rename_i hf
    simp only [ne_eq, not_not] at hf
    split at h
    · rename_i d
      simp only [Option.some.injEq] at h
      subst h
      have := ht _ rfl
      refine ⟨fun p hp => ?_, by simp, by simp⟩
      cases d with
      | none => simp at hp; rw [← hp]; exact hf
      | some d => simp at hp; rw [← hp]; exact freeIndices_op2 (this.1 d rfl) hf
    · cases h

omit [FloatOps F] in
theorem closed_min {t : Option (Clip F)} {o : Expr F} {t' : Clip F} (ht : ∀ u, t = some u → PartsClosed u)
    (h : clipMin t o = some t') : PartsClosed t' := by
  unfold clipMin at h
  split at h
  · cases h
  · rename_i hf
    simp only [ne_eq, not_not] at hf
    simp only [Option.map_eq_some_iff] at h
    obtain ⟨⟨d, lo, hi⟩, hu, rfl⟩ := h
    obtain ⟨h1, h2, h3⟩ := ht _ hu
    refine ⟨h1, h2, fun p hp => ?_⟩
    cases hi with
    | none => simp at hp; rw [← hp]; exact hf
    | some d => simp at hp; rw [← hp]; exact freeIndices_op2 (h3 d rfl) hf

omit [FloatOps F] in
theorem closed_max {t : Option (Clip F)} {o : Expr F} {t' : Clip F} (ht : ∀ u, t = some u → PartsClosed u)
    (h : clipMax t o = some t') : PartsClosed t' := by
  unfold clipMax at h
  split at h
  · cases h
  · rename_i hf
    simp only [ne_eq, not_not] at hf
    simp only [Option.map_eq_some_iff] at h
    obtain ⟨⟨d, lo, hi⟩, hu, rfl⟩ := h
    obtain ⟨h1, h2, h3⟩ := ht _ hu
    refine ⟨h1, fun p hp => ?_, fun p hp => ?_⟩
    · cases lo with
      | none => simp at hp; rw [← hp]; exact hf
      | some d => simp at hp; rw [← hp]; exact freeIndices_op2 (h2 d rfl) hf
    · cases hi with
      | none => simp at hp
      | some d => simp at hp; rw [← hp]; exact freeIndices_op2 (h3 d rfl) hf

omit [FloatOps F] in
theorem matchClip_closed (s : Sym) (e : Expr F) : ∀ t, matchClip s e = some t → PartsClosed t := by
  induction e using ind with
  | step h ts ih =>
    intro t ht
    have triv : PartsClosed ((none, none, none) : Clip F) := ⟨by simp, by simp, by simp⟩
    unfold matchClip at ht
    rw [para_node, clipStep] at ht
    split at ht
    · simp only [Option.some.injEq] at ht; subst ht; exact triv
    · have hall : ∀ p ∈ ts.map (fun t => (t, para (clipStep s) t)), ∀ u, p.2 = some u → PartsClosed u := by
        intro p hp u hu
        obtain ⟨x, hx, rfl⟩ := List.mem_map.1 hp
        exact ih x hx u hu
      revert ht hall
      generalize ts.map (fun t => (t, para (clipStep s) t)) = us
      intro ht hall
      unfold clipMatch at ht
      split at ht
      · split at ht
        · simp only [Option.some.injEq] at ht; subst ht; exact triv
        · cases ht
      · rcases firstOpt_some ht with ht | ht
        · exact closed_add (hall _ (by simp)) ht
        · exact closed_add (hall _ (by simp)) ht
      · rcases firstOpt_some ht with ht | ht
        · exact closed_add (hall _ (by simp)) ht
        · refine closed_add (fun u hu => ?_) ht
          split at hu
          · simp only [Option.some.injEq] at hu; subst hu; exact triv
          · cases hu
      · rcases firstOpt_some ht with ht | ht
        · exact closed_min (hall _ (by simp)) ht
        · exact closed_min (hall _ (by simp)) ht
      · rcases firstOpt_some ht with ht | ht
        · exact closed_max (hall _ (by simp)) ht
        · exact closed_max (hall _ (by simp)) ht
      · cases ht

/-! ### Properties -/

/-- C04: if a position expression is recognised as `min(max(i + shift, low), high)`, then in every
environment, for every value of the index, it has the value of that form (and fails if a part fails). -/
theorem C04_value (e : Expr F) (i : Nat) (t : Clip F) (h : matchIndexClip e = some (i, t))
    (env : Env (D F)) (k : Int) (hk : env (.idx i) = some (.int k)) :
    run I e env = (formValue I env k t).map Val.int := by
  simp only [matchIndexClip, Option.bind_eq_some_iff, Option.map_eq_some_iff, Prod.mk.injEq] at h
  obtain ⟨j, hj, t', ht, rfl, rfl⟩ := h
  have hm : Sym.idx j ∈ fv e := by
    have : Sym.idx j ∈ freeIndices e := by rw [onlyIndex_iff.1 hj]; simp
    exact (Finset.mem_filter.1 this).1
  exact matchClip_sound I j e hm t' ht env k hk

omit [FloatOps F] in
/-- C04: the recognised index is the only free index of the expression, and the shift and bounds mention
no index at all, so they can be computed once. -/
theorem C04_parts (e : Expr F) (i : Nat) (t : Clip F) (h : matchIndexClip e = some (i, t)) :
    freeIndices e = {.idx i} ∧ PartsClosed t := by
  simp only [matchIndexClip, Option.bind_eq_some_iff, Option.map_eq_some_iff, Prod.mk.injEq] at h
  obtain ⟨j, hj, t', ht, rfl, rfl⟩ := h
  exact ⟨onlyIndex_iff.1 hj, matchClip_closed _ _ _ ht⟩

/-- Used with a symbol that is not in the expression, the recogniser alone accepts any closed expression
as the symbol itself; `match_index_clipped_shift` never calls it so. -/
theorem C04_isolated_counterexample :
    matchClip (.idx 0) (Phi.int 5 : Expr Int) = some (none, none, none) := by decide +kernel

/-- Non-vacuity: `max(min(i - x + 2, 7), y)` is recognised. -/
def C04_example : Expr Int :=
  op2 .max (op2 .min (op2 .add (op2 .subtract (at_ 0) (Toy.ivar 0)) (Phi.int 2)) (Phi.int 7)) (Toy.ivar 1)

example : (matchIndexClip C04_example).map Prod.fst = some 0 ∧
    (matchIndexClip C04_example).map Prod.snd =
      some (some (op2 .add (op1 .negate (Toy.ivar 0)) (Phi.int 2)), some (Toy.ivar 1),
        some (op2 .max (Phi.int 7) (Toy.ivar 1))) := by
  constructor <;> decide +kernel

example : run Toy.noExt C04_example
    ((Toy.envOf [(0, .int 1), (1, .int 3)]).set (.idx 0) (some (.int 10))) = some (.int 7) := by
  decide +kernel

end Verif.Props
