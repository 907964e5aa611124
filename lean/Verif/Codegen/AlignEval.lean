import Verif.Codegen.Align
import Verif.Codegen.PadSlice
import Verif.Yarr.Rank

/-! Evaluation of aligned array code. -/

set_option linter.unusedSectionVars false

namespace Verif.Codegen
open Verif.Phi Verif.Term Verif.Yarr Verif.Arr
variable {F : Type} [FloatOps F] {J : YExt F} {env : Env (YVal F)}

/-- The value of the code, if any, has the ranks of its type, if any. -/
def RankOk (J : YExt F) (env : Env (YVal F)) (y : YExpr F) : Prop :=
  ∀ τ x, Yarr.typeOf y = some τ → Yarr.eval J y env = some x → ValRank x τ

/-- Heads that bind nothing and have no type written on them. -/
def Plain : Yarr.Head F → Prop
  | .const _ _ | .var _ _ | .letv _ | .fold _ _ | .reduce _ _ _ | .ext _ _ => False
  | _ => True

theorem den_const {h : Yarr.Head F} (hp : Plain h) (fs : List (Env (YVal F) → Option (YVal F))) :
    Yarr.den J h fs env = Yarr.den J h ((fs.map (· env)).map fun v _ => v) env := by
  cases h <;> first
    | exact hp.elim
    | (rcases fs with _ | ⟨f, _ | ⟨g, _ | ⟨k, fs⟩⟩⟩ <;> simp [Yarr.den, List.map_map, Function.comp_def])

theorem rankOk_node {h : Yarr.Head F} (hp : Plain h) {ts : List (YExpr F)} (hts : ∀ t ∈ ts, RankOk J env t) :
    RankOk J env (node h ts) := by
  intro τ x ht hx
  rw [Yarr.typeOf_node] at ht
  have e : (ts.map (Yarr.eval J)).map (· env) = ts.map fun t => Yarr.eval J t env := by simp
  rw [Yarr.eval_node, den_const hp, e] at hx
  refine rank_step J h _ _ ?_ ?_ ?_ ?_ ?_ env ht hx
  · rw [AllRank, List.forall₂_map_left_iff, List.forall₂_map_right_iff, List.forall₂_same]
    intro t ht' x τ h1 h2
    exact hts t ht' τ x h2 h1
  · cases h <;> first | rfl | exact hp.elim
  · cases h <;> first | rfl | exact hp.elim
  · rintro v τ rfl; exact hp.elim
  · rintro fn τ rfl; exact hp.elim

theorem RankOk.rankOf {y : YExpr F} (h : RankOk J env y) {a : A F} (ha : Yarr.eval J y env = some (.arr a))
    {r : Nat} (hr : rankOf y = some r) : a.rank = r := by
  unfold Codegen.rankOf at hr
  cases ht : Yarr.typeOf y with
  | none => rw [ht] at hr; cases hr
  | some τ =>
    rw [ht] at hr
    simp only [Option.bind_some, Option.map_eq_some_iff] at hr
    obtain ⟨b, hb, rfl⟩ := hr
    have := single_eq hb
    subst this
    exact valRank_arr.1 (h _ _ ht ha)

/-- The repeats of the new axes. -/
theorem repeatAll_eval {a : A F} {axes into : List Nat} {σ : Nat → Nat} {s : List Nat}
    {repeats : Nat → Option (YExpr F)} (hn : into.Nodup)
    (hrep : ∀ x e, repeats x = some e → EvalsInt J env e (σ x) ∧ RankOk J env e) (l : List (Nat × Nat)) :
    ∀ (e : YExpr F) (t : A F) (D : Nat → Nat), Yarr.eval J e env = some (.arr t) → RankOk J env e →
      Placed a t axes into D s → (l.map Prod.snd).Nodup →
      (∀ p ∈ l, into[p.1]? = some p.2 ∧ p.2 ∉ axes ∧ D p.2 = 1) →
      ∃ b, Yarr.eval J (repeatAll repeats e l) env = some (.arr b) ∧ RankOk J env (repeatAll repeats e l) ∧
        Placed a b axes into
          (fun y => if y ∈ l.map Prod.snd ∧ (repeats y).isSome then σ y else D y) s := by
  induction l with
  | nil =>
    intro e t D he hr hp _ _
    exact ⟨t, he, hr, by simpa [repeatAll] using hp⟩
  | cons p l ih =>
    intro e t D he hr hp hnd hl
    obtain ⟨h1, h2, h3⟩ := hl p (by simp)
    rw [List.map_cons, List.nodup_cons] at hnd
    cases hx : repeats p.2 with
    | none =>
      have e1 : repeatAll repeats e (p :: l) = repeatAll repeats e l := by
        unfold repeatAll; rw [List.foldl_cons, hx]
      rw [e1]
      obtain ⟨b, hb, hrb, hbp⟩ := ih e t D he hr hp hnd.2 (fun q hq => hl q (by simp [hq]))
      refine ⟨b, hb, hrb, ?_⟩
      have e2 : (fun y => if y ∈ (p :: l).map Prod.snd ∧ (repeats y).isSome then σ y else D y) =
          (fun y => if y ∈ l.map Prod.snd ∧ (repeats y).isSome then σ y else D y) := by
        funext y
        by_cases hy : y = p.2
        · subst hy; simp [hx]
        · simp only [List.map_cons, List.mem_cons, hy, false_or, if_false]
      rw [e2]; exact hbp
    | some n =>
      have e1 : repeatAll repeats e (p :: l) = repeatAll repeats (node (.repeat_ p.1) [n, e]) l := by
        unfold repeatAll; rw [List.foldl_cons, hx]
      rw [e1]
      obtain ⟨b, hb, hbp⟩ := repeat_placed (n := (σ p.2 : Int)) hp hn h1 h2 h3 (by omega)
      obtain ⟨hn1, hn2⟩ := hrep p.2 n hx
      obtain ⟨c, hc, hrc, hcp⟩ := ih (node (.repeat_ p.1) [n, e]) b
        (fun y => if y = p.2 then σ p.2 else D y) (by
          unfold EvalsInt at hn1
          rw [Yarr.eval_node]
          simp [Yarr.den, hn1, he, YVal.asArr, asSize_scalar, arr1, hb]) (rankOk_node (by trivial) (by
          intro t ht; simp at ht; rcases ht with rfl | rfl <;> assumption)) (by simpa using hbp) hnd.2 (by
          intro q hq
          obtain ⟨g1, g2, g3⟩ := hl q (by simp [hq])
          refine ⟨g1, g2, ?_⟩
          rw [if_neg, g3]
          intro e
          exact hnd.1 (e ▸ List.mem_map_of_mem hq))
      refine ⟨c, hc, hrc, ?_⟩
      have e2 : (fun y => if y ∈ (p :: l).map Prod.snd ∧ (repeats y).isSome then σ y else D y) =
          (fun y => if y ∈ l.map Prod.snd ∧ (repeats y).isSome then σ y else
            if y = p.2 then σ p.2 else D y) := by
        funext y
        by_cases hy : y = p.2
        · subst hy; simp [hx]
        · simp only [List.map_cons, List.mem_cons, hy, false_or, if_false]
      rw [e2]; exact hcp

/-- The leading axes of aligned code. -/
def alignedAxes (axes into : List Nat) (leftpad : Bool) : List Nat :=
  if leftpad then into else trimmed axes into

theorem expands_snd_nodup {axes : List Nat} {k : Nat} {into : List Nat} (hi : into.Nodup) :
    ((expands axes k into).map Prod.snd).Nodup := by
  induction into generalizing k with
  | nil => simp [expands]
  | cons x into ih =>
    have hx := List.nodup_cons.1 hi
    unfold expands
    split
    · exact ih hx.2
    · rw [List.map_cons, List.nodup_cons]
      refine ⟨fun h => ?_, ih hx.2⟩
      obtain ⟨p, hp, e⟩ := List.mem_map.1 h
      obtain ⟨i, h1, _⟩ := mem_expands.1 hp
      have e' : p.2 = x := e
      exact hx.1 (e' ▸ List.mem_of_getElem? h1)

/-- Evaluation of `_align`: the result is the operand laid out along the given axes. -/
theorem align_eval {a : A F} {e y : YExpr F} {axes into : List Nat} {leftpad : Bool} {σ : Nat → Nat}
    {s : List Nat} {repeats : Nat → Option (YExpr F)}
    (hy : align e axes into leftpad repeats = some y) (he : Yarr.eval J e env = some (.arr a))
    (hr : RankOk J env e) (hn : axes.Nodup) (hi : into.Nodup) (hs : a.shape = axes.map σ ++ s)
    (hrep : ∀ x e, repeats x = some e → EvalsInt J env e (σ x) ∧ RankOk J env e) :
    ∃ b, Yarr.eval J y env = some (.arr b) ∧ RankOk J env y ∧
      Placed a b axes (alignedAxes axes into leftpad)
        (fun x => if x ∈ axes ∨ (repeats x).isSome then σ x else 1) s := by
  unfold align at hy
  cases hrk : rankOf e with
  | none => rw [hrk] at hy; cases hy
  | some r =>
    rw [hrk] at hy
    simp only [Option.bind_some] at hy
    split at hy
    · rename_i hcond
      have hr' : r - axes.length = s.length := by
        have := hr.rankOf he hrk
        unfold NArr.rank at this
        rw [hs] at this
        simp at this
        omega
      set into' := alignedAxes axes into leftpad with hinto
      have hi' : into'.Nodup := by
        rw [hinto]; unfold alignedAxes
        split
        · exact hi
        · exact (trimmed_suffix axes into).sublist.nodup hi
      have hfil : into'.filter (fun x => decide (x ∈ axes)) = into.filter fun x => decide (x ∈ axes) := by
        rw [hinto]; unfold alignedAxes
        split
        · rfl
        · exact filter_trimmed axes into
      have hsub : ∀ x ∈ axes, x ∈ into' := by
        intro x hx
        have : x ∈ into'.filter fun x => decide (x ∈ axes) := by
          rw [hfil, List.mem_filter]
          exact ⟨hcond.2 x hx, by simpa using hx⟩
        exact (List.mem_filter.1 this).1
      have hex : (if leftpad = true then expands axes 0 into else dropLeading 0 (expands axes 0 into)) =
          expands axes 0 into' := by
        rw [hinto]; unfold alignedAxes
        split
        · rfl
        · exact dropLeading_expands axes 0 into
      rw [hex, sortAxes_eq hn hi hcond.2, hr', ← hfil] at hy
      cases hy
      obtain ⟨t, b, ht, hb, hbp⟩ := expand_placed hn hi' hsub hs
      have heb : Yarr.eval J (node (.unsqueeze ((expands axes 0 into').map Prod.fst))
          [node (.transpose (axisPerm axes (into'.filter fun x => decide (x ∈ axes)) s.length)) [e]]) env =
          some (.arr b) := by
        rw [Yarr.eval_node]
        simp [Yarr.den, arr1, Yarr.eval_node, he, YVal.asArr, ht, hb]
      have hrb : RankOk J env (node (.unsqueeze ((expands axes 0 into').map Prod.fst))
          [node (.transpose (axisPerm axes (into'.filter fun x => decide (x ∈ axes)) s.length)) [e]]) :=
        rankOk_node (by trivial) (by
          intro t ht; simp at ht; subst ht
          exact rankOk_node (by trivial) (by intro t ht; simp at ht; subst ht; exact hr))
      obtain ⟨c, hc, hrc, hcp⟩ := repeatAll_eval (a := a) (axes := axes) (σ := σ) (s := s)
        (repeats := repeats) hi' hrep (expands axes 0 into') _ b _ heb hrb hbp
        (expands_snd_nodup hi') (by
          intro p hp
          obtain ⟨i, h1, h2, h3⟩ := mem_expands.1 hp
          have : p.1 = i := by omega
          exact ⟨by rw [this]; exact h1, h3, if_neg h3⟩)
      refine ⟨c, hc, hrc, ⟨?_, ?_⟩⟩
      · rw [hcp.shape]
        congr 1
        refine List.map_congr_left fun x hx => ?_
        by_cases hxa : x ∈ axes
        · have : x ∉ (expands axes 0 into').map Prod.snd := by
            intro h
            obtain ⟨p, hp, rfl⟩ := List.mem_map.1 h
            exact (mem_expands.1 hp).choose_spec.2.2 hxa
          simp [hxa, this]
        · have : x ∈ (expands axes 0 into').map Prod.snd := by
            obtain ⟨i, h⟩ := List.getElem?_of_mem hx
            exact List.mem_map.2 ⟨(i, x), mem_expands.2 ⟨i, h, by omega, hxa⟩, rfl⟩
          simp [hxa, this]
      · intro ρ jx hρ hj
        refine hcp.get ρ jx (fun x hx => ?_) hj
        have := hρ x hx
        by_cases hxa : x ∈ axes
        · simp only [hxa, true_or, if_true] at this
          have h' : x ∉ (expands axes 0 into').map Prod.snd := by
            intro h
            obtain ⟨p, hp, rfl⟩ := List.mem_map.1 h
            exact (mem_expands.1 hp).choose_spec.2.2 hxa
          rw [if_neg (fun h => h' h.1), if_pos hxa]; exact this
        · simp only [hxa, false_or] at this
          have h' : x ∈ (expands axes 0 into').map Prod.snd := by
            obtain ⟨i, h⟩ := List.getElem?_of_mem hx
            exact List.mem_map.2 ⟨(i, x), mem_expands.2 ⟨i, h, by omega, hxa⟩, rfl⟩
          by_cases hs' : (repeats x).isSome
          · rw [if_pos ⟨h', hs'⟩]; rwa [if_pos hs'] at this
          · rw [if_neg (fun h => hs' h.2), if_neg hxa]; rwa [if_neg hs'] at this
    · cases hy

/-! ### `_alignment` -/

theorem mem_alignStep {seen axes : List Nat} {x : Nat} : x ∈ alignStep seen axes ↔ x ∈ seen ∨ x ∈ axes := by
  unfold alignStep
  induction axes generalizing seen with
  | nil => simp
  | cons a axes ih =>
    rw [List.foldl_cons, ih]
    split
    · rename_i h
      constructor
      · rintro (h' | h'); exacts [Or.inl h', Or.inr (by simp [h'])]
      · rintro (h' | h')
        · exact Or.inl h'
        · rcases List.mem_cons.1 h' with rfl | h''
          · exact Or.inl h
          · exact Or.inr h''
    · rw [List.mem_append, List.mem_singleton, List.mem_cons]; tauto

theorem nodup_alignStep {seen axes : List Nat} (h : seen.Nodup) : (alignStep seen axes).Nodup := by
  unfold alignStep
  induction axes generalizing seen with
  | nil => exact h
  | cons a axes ih =>
    rw [List.foldl_cons]
    split
    · exact ih h
    · rename_i ha
      apply ih
      rw [List.nodup_append]
      refine ⟨h, by simp, fun x hx y hy e => ?_⟩
      simp at hy
      subst hy e
      exact ha hx

theorem mem_alignment_from {args : List (List Nat)} {seen : List Nat} {x : Nat} :
    x ∈ args.foldl alignStep seen ↔ x ∈ seen ∨ ∃ axes ∈ args, x ∈ axes := by
  induction args generalizing seen with
  | nil => simp
  | cons a args ih => rw [List.foldl_cons, ih, mem_alignStep]; simp [or_assoc]

/-- `_alignment` collects all axes. -/
theorem mem_alignment {args : List (List Nat)} {x : Nat} : x ∈ alignment args ↔ ∃ axes ∈ args, x ∈ axes := by
  unfold alignment; rw [mem_alignment_from]; simp

/-- `_alignment` lists each axis once. -/
theorem nodup_alignment (args : List (List Nat)) : (alignment args).Nodup := by
  unfold alignment
  have : ∀ seen : List Nat, seen.Nodup → (args.foldl alignStep seen).Nodup := by
    induction args with
    | nil => exact fun _ h => h
    | cons a args ih => exact fun seen h => ih _ (nodup_alignStep h)
  exact this [] List.nodup_nil

end Verif.Codegen
