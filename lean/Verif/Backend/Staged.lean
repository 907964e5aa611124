import Verif.Backend.Dict
import Verif.Yarr.Strict

/-!
The array backends with their destructively updated dictionary (`stage`, `ein/backend/array_backend.py:157-255`,
`ein/backend/numpy_backend.py:126-173`).
-/

set_option linter.unusedSectionVars false

namespace Verif.Backend
open Verif.Phi Verif.Term Verif.Arr Verif.Yarr
variable {F : Type} [FloatOps F]

/-- `get` (`array_backend.py:139-142`): the operands are stored in the dictionary and the body is evaluated. -/
def redGet (single : Bool) (x y : Nat) (xy : Mut (YVal F)) (l r : List (A F)) (env : Env (YVal F)) :
    Option (List (A F) × Env (YVal F)) :=
  (ofArrs single l).bind fun p => (ofArrs single r).bind fun q =>
    (xy ((env.set (.var x) (some p)).set (.var y) (some q))).bind fun s => (toArrs single s.1).map fun as => (as, s.2)

/-- The loop of `reduce_impl` (`array_backend.py:144-150`), with the dictionary; `Yarr.redLoop` is the same without
it. -/
def redLoopD (get : List (A F) → List (A F) → Env (YVal F) → Option (List (A F) × Env (YVal F))) (axis : Nat) :
    Nat → Nat → List (A F) → List (A F) → Env (YVal F) → Option (List (A F) × Env (YVal F))
  | 0, _, _, _, _ => none
  | fuel + 1, n, acc, vals, env =>
    if 1 < n then
      (if n % 2 = 1 then (mapOpt (oneSlice axis (n - 1)) vals).bind fun l => get l acc env
        else some (acc, env)).bind fun s =>
      (mapOpt (stride axis 0 (n / 2)) vals).bind fun l =>
      (mapOpt (stride axis 1 (n / 2)) vals).bind fun r =>
      (get l r s.2).bind fun t => redLoopD get axis fuel (n / 2) s.1 t.1 t.2
    else if n = 1 then (mapOpt (oneSlice axis 0) vals).bind fun l => get l acc env
    else some (acc, env)

/-- `reduce_impl` (`array_backend.py:113-153`): the initial value before the vectors; the variables are deleted if
there was something to reduce. -/
def reduceImpl (x y axis : Nat) (init xy vecs : Mut (YVal F)) : Mut (YVal F) := fun env =>
  (init env).bind fun ri => (vecs ri.2).bind fun rv =>
  let single := match rv.1 with | .arr _ => true | .tup _ => false
  (toArrs single ri.1).bind fun acc =>
  match (rv.1.arrs.map (fun a : A F => a.shape[axis]?)).dedup with
  | [some n] =>
    (mapOpt (NArr.unsqueeze [axis]) acc).bind fun acc =>
    (redLoopD (redGet single x y xy) axis (n + 1) n acc rv.1.arrs rv.2).bind fun s =>
    (if n ≠ 0 then (delKey (.var x) s.2).bind (delKey (.var y)) else some s.2).bind fun e =>
    (mapOpt (NArr.squeeze [axis]) s.1).bind fun acc => (ofArrs single acc).map fun v => (v, e)
  | _ => none

/-- One node of `stage` (`array_backend.py:157-255`, `numpy_backend.py:133-173`). The operands of a node without
variables are evaluated one after the other, here in the order of the fields of the node; the backends evaluate the
count of `Repeat` after its target and, for an update in place of the second operand, that operand first. -/
def stageDen (J : YExt F) : Yarr.Head F → List (Mut (YVal F)) → Mut (YVal F)
  | .const v _, _ => fun env => some (v, env)
  | .var v _, _ => fun env => (env (.var v)).map (·, env)
  | .letv v, [f, g] => letImpl v f g
  | .fold c a, [n, z, b] => foldImpl (fun v => v.asArr.bind asSize) (fun i => .arr (.scalar (.i i))) c a n z b
  | .reduce x y axis, [z, b, vs] => reduceImpl x y axis z b vs
  | .letv _, _ | .fold _ _, _ | .reduce _ _ _, _ => fun _ => none
  | h, fs => fun env => (seqM fs env).bind fun rs => (Yarr.den J h (rs.1.map fun v _ => some v) rs.2).map (·, rs.2)

/-- `go(program)(env)` (`numpy_backend.py:133-178`): the result and the dictionary afterwards. -/
def staged (J : YExt F) (e : YExpr F) : Mut (YVal F) := cata (stageDen J) e

theorem staged_node (J : YExt F) (h : Yarr.Head F) (ts : List (YExpr F)) :
    staged J (node h ts) = stageDen J h (ts.map (staged J)) := cata_node _ _ _

/-- The binders of one node are different. -/
def Different : Yarr.Head F → Prop
  | .fold c a => c ≠ a
  | .reduce x y _ => x ≠ y
  | _ => True

instance (h : Yarr.Head F) : Decidable (Different h) := by unfold Different; split <;> infer_instance

/-! ### Nodes without variables -/

/-- A node that binds nothing and is no variable. -/
def plainHead : Yarr.Head F → Bool
  | .const _ _ | .var _ _ | .letv _ | .fold _ _ | .reduce _ _ _ => false
  | _ => true

theorem mapOpt_none_of_mem {α β : Type} {f : α → Option β} {l : List α} {a : α} (ha : a ∈ l) (h : f a = none) :
    mapOpt f l = none := by
  induction l with
  | nil => cases ha
  | cons b l ih =>
    rcases List.mem_cons.1 ha with rfl | ha
    · rw [mapOpt, h]; rfl
    · rw [mapOpt, ih ha]; cases f b <;> rfl

theorem arrsOf_none {vs : List (Option (YVal F))} (h : none ∈ vs) : arrsOf vs = none :=
  mapOpt_none_of_mem h rfl

theorem arrsOf_some (vs : List (YVal F)) : arrsOf (vs.map some) = mapOpt YVal.asArr vs := by
  unfold arrsOf; rw [mapOpt_map]; rfl

theorem arrsOf_plain {γ : Type} (fs : List (Env (YVal F) → Option (YVal F))) (env : Env (YVal F))
    (k : List (A F) → Option γ) :
    (arrsOf (fs.map (· env))).bind k = (mapOpt (fun g => g env) fs).bind fun vs =>
      (arrsOf (vs.map fun v => some v)).bind k := by
  unfold arrsOf
  rw [mapOpt_map, mapOpt_bind (fun f : Env (YVal F) → Option (YVal F) => f env), Option.bind_assoc]
  congr 1
  funext vs
  rw [mapOpt_map]
  rfl

theorem arr1_plain (k : List (A F) → A F → Option (A F)) (f : Env (YVal F) → Option (YVal F))
    (fs : List (Env (YVal F) → Option (YVal F))) (env : Env (YVal F)) :
    ((arrsOf (fs.map (· env))).bind fun bs => arr1 (k bs) (f env)) = (mapOpt (fun g => g env) (f :: fs)).bind fun vs =>
      match vs with
      | v :: vs => (arrsOf (vs.map fun v => some v)).bind fun bs => arr1 (k bs) (some v)
      | [] => none := by
  rw [arrsOf_plain fs, mapOpt]
  cases f env with
  | none => cases mapOpt (fun g => g env) fs <;> simp [arr1]
  | some v => cases mapOpt (fun g => g env) fs <;> rfl

/-- Such a node depends on the values of its operands only, and has no value if one of them has none. -/
theorem den_plain (J : YExt F) {h : Yarr.Head F} (hh : plainHead h = true)
    (fs : List (Env (YVal F) → Option (YVal F))) (env : Env (YVal F)) :
    Yarr.den J h fs env = (mapOpt (fun g => g env) fs).bind fun vs => Yarr.den J h (vs.map fun v _ => some v) env := by
  cases h with
  | const | var | letv | fold | reduce => cases hh
  | dim | range | transpose | squeeze | unsqueeze | reduceAxis | cast | untuple =>
    rcases fs with _ | ⟨f, _ | ⟨g, fs⟩⟩
    · rfl
    · simp only [mapOpt]
      cases hf : f env <;> simp [Yarr.den, arr1, hf]
    · simp only [mapOpt]
      cases f env with
      | none => rfl
      | some u =>
        cases g env with
        | none => rfl
        | some v => cases mapOpt (fun g => g env) fs <;> rfl
  | gather | repeat_ =>
    rcases fs with _ | ⟨f, _ | ⟨g, _ | ⟨k, fs⟩⟩⟩
    · rfl
    · simp only [mapOpt]
      cases hf : f env <;> simp [Yarr.den]
    · simp only [mapOpt]
      cases hf : f env <;> cases hg : g env <;> simp [Yarr.den, arr1, hf, hg]
    · simp only [mapOpt]
      cases f env with
      | none => rfl
      | some u =>
        cases g env with
        | none => rfl
        | some v =>
          cases k env with
          | none => rfl
          | some v => cases mapOpt (fun g => g env) fs <;> rfl
  | take | slice | pad =>
    rcases fs with _ | ⟨f, fs⟩
    · rfl
    · refine (arr1_plain _ f fs env).trans ?_
      congr 1
      funext vs
      cases vs with
      | nil => rfl
      | cons v vs =>
        exact congrArg (fun l => Option.bind (arrsOf l) _) (by rw [List.map_map]; rfl)
  | concat | elem | tuple | einsum =>
    exact (arrsOf_plain fs env _).trans (by congr 1; funext vs; exact congrArg (fun l => Option.bind l _) (congrArg arrsOf (by rw [List.map_map]; rfl)))
  | ext =>
    simp only [Yarr.den, List.map_map, Function.comp_def, mapOpt_map]
    congr 1
    funext vs
    rw [mapOpt_pure]
    rfl

/-! ### Reductions -/

theorem redLoopD_eq {x y axis : Nat} {single : Bool} {body : Mut (YVal F)} {g : Env (YVal F) → Option (YVal F)}
    {env : Env (YVal F)} (hxy : x ≠ y)
    (hb : ∀ p q : YVal F, body ((env.set (.var x) (some p)).set (.var y) (some q)) =
      (g ((env.set (.var x) (some p)).set (.var y) (some q))).map
        (·, (env.set (.var x) (some p)).set (.var y) (some q))) :
    ∀ (fuel n : Nat) (acc vals : List (A F)) (o p : Option (YVal F)), ∃ o' p' : Option (YVal F),
      (n = 0 → o' = o ∧ p' = p) ∧
      (n ≠ 0 → redLoopD (redGet single x y body) axis fuel n acc vals ((env.set (.var x) o).set (.var y) p) ≠ none →
        o'.isSome = true ∧ p'.isSome = true) ∧
      redLoopD (redGet single x y body) axis fuel n acc vals ((env.set (.var x) o).set (.var y) p) =
        (redLoop (fun l r => (ofArrs single l).bind fun p => (ofArrs single r).bind fun q =>
          (g ((env.set (.var x) (some p)).set (.var y) (some q))).bind (toArrs single)) axis fuel n acc vals).map
          fun r => (r, (env.set (.var x) o').set (.var y) p') := by
  have hne : Sym.var x ≠ Sym.var y := fun h => hxy (Sym.var.inj h)
  have hget : ∀ (l r : List (A F)) (o p : Option (YVal F)), ∃ o' p' : Option (YVal F),
      (redGet single x y body l r ((env.set (.var x) o).set (.var y) p) ≠ none → o'.isSome = true ∧ p'.isSome = true) ∧
      redGet single x y body l r ((env.set (.var x) o).set (.var y) p) =
        ((ofArrs single l).bind fun p => (ofArrs single r).bind fun q =>
          (g ((env.set (.var x) (some p)).set (.var y) (some q))).bind (toArrs single)).map
          fun r => (r, (env.set (.var x) o').set (.var y) p') := by
    intro l r o p
    unfold redGet
    cases ofArrs single l with
    | none => exact ⟨none, none, by simp, rfl⟩
    | some u =>
      cases ofArrs single r with
      | none => exact ⟨none, none, by simp, rfl⟩
      | some w =>
        have e : (((env.set (.var x) o).set (.var y) p).set (.var x) (some u)).set (.var y) (some w) =
            (env.set (.var x) (some u)).set (.var y) (some w) := by
          rw [set_comm _ hne.symm, set_set, set_set]
        simp only [Option.bind_some, e, hb]
        refine ⟨some u, some w, fun _ => ⟨rfl, rfl⟩, ?_⟩
        cases g ((env.set (.var x) (some u)).set (.var y) (some w)) with
        | none => rfl
        | some v => simp
  intro fuel
  induction fuel with
  | zero => exact fun n acc vals o p => ⟨o, p, fun _ => ⟨rfl, rfl⟩, fun _ h => absurd rfl h, rfl⟩
  | succ fuel ih =>
    intro n acc vals o p
    rw [redLoopD, redLoop]
    by_cases h1 : 1 < n
    · rw [if_pos h1, if_pos h1]
      -- the odd slice
      obtain ⟨o1, p1, e1⟩ : ∃ o1 p1 : Option (YVal F),
          (if n % 2 = 1 then (mapOpt (oneSlice axis (n - 1)) vals).bind fun l =>
              redGet single x y body l acc ((env.set (.var x) o).set (.var y) p)
            else some (acc, (env.set (.var x) o).set (.var y) p)) =
          (if n % 2 = 1 then (mapOpt (oneSlice axis (n - 1)) vals).bind fun l =>
              (ofArrs single l).bind fun p => (ofArrs single acc).bind fun q =>
                (g ((env.set (.var x) (some p)).set (.var y) (some q))).bind (toArrs single)
            else some acc).map fun r => (r, (env.set (.var x) o1).set (.var y) p1) := by
        split
        · cases mapOpt (oneSlice axis (n - 1)) vals with
          | none => exact ⟨o, p, rfl⟩
          | some l =>
            obtain ⟨o1, p1, -, e⟩ := hget l acc o p
            exact ⟨o1, p1, e⟩
        · exact ⟨o, p, rfl⟩
      rw [e1]
      generalize (if n % 2 = 1 then (mapOpt (oneSlice axis (n - 1)) vals).bind fun l =>
              (ofArrs single l).bind fun p => (ofArrs single acc).bind fun q =>
                (g ((env.set (.var x) (some p)).set (.var y) (some q))).bind (toArrs single)
            else some acc) = r1
      cases r1 with
      | none => exact ⟨o, p, by omega, by simp, rfl⟩
      | some acc' =>
        simp only [Option.map_some, Option.bind_some]
        cases mapOpt (stride axis 0 (n / 2)) vals with
        | none => exact ⟨o, p, by omega, by simp, rfl⟩
        | some l =>
          cases mapOpt (stride axis 1 (n / 2)) vals with
          | none => exact ⟨o, p, by omega, by simp, rfl⟩
          | some r =>
            obtain ⟨o2, p2, -, e2⟩ := hget l r o1 p1
            simp only [Option.bind_some, e2]
            cases (ofArrs single l).bind fun p => (ofArrs single r).bind fun q =>
              (g ((env.set (.var x) (some p)).set (.var y) (some q))).bind (toArrs single) with
            | none => exact ⟨o, p, by omega, by simp, rfl⟩
            | some vals' =>
              simp only [Option.map_some, Option.bind_some]
              obtain ⟨o3, p3, -, h3, e3⟩ := ih (n / 2) acc' vals' o2 p2
              exact ⟨o3, p3, by omega, fun _ => h3 (by omega), e3⟩
    · rw [if_neg h1, if_neg h1]
      by_cases h2 : n = 1
      · rw [if_pos h2, if_pos h2]
        cases mapOpt (oneSlice axis 0) vals with
        | none => exact ⟨o, p, by omega, by simp, rfl⟩
        | some l =>
          obtain ⟨o1, p1, h3, e⟩ := hget l acc o p
          exact ⟨o1, p1, by omega, fun _ => h3, e⟩
      · rw [if_neg h2, if_neg h2]
        exact ⟨o, p, fun _ => ⟨rfl, rfl⟩, by omega, rfl⟩

/-- `reduce_impl` on a body that restores the dictionary. -/
theorem reduceImpl_eq {x y axis : Nat} (hxy : x ≠ y) {init body vecs : Mut (YVal F)}
    {zg g vg : Env (YVal F) → Option (YVal F)} {env : Env (YVal F)} (hx : env (.var x) = none)
    (hy : env (.var y) = none) (hz : init env = (zg env).map (·, env)) (hv : vecs env = (vg env).map (·, env))
    (hb : ∀ p q : YVal F, body ((env.set (.var x) (some p)).set (.var y) (some q)) =
      (g ((env.set (.var x) (some p)).set (.var y) (some q))).map
        (·, (env.set (.var x) (some p)).set (.var y) (some q))) :
    reduceImpl x y axis init body vecs env =
      ((zg env).bind fun i => (vg env).bind fun v => Yarr.reduceOf axis i v fun p q =>
        g ((env.set (.var x) (some p)).set (.var y) (some q))).map (·, env) := by
  have hne : Sym.var x ≠ Sym.var y := fun h => hxy (Sym.var.inj h)
  unfold reduceImpl
  rw [hz]
  cases zg env with
  | none => rfl
  | some i =>
    simp only [Option.map_some, Option.bind_some]
    rw [hv]
    cases vg env with
    | none => rfl
    | some v =>
      simp only [Option.map_some, Option.bind_some]
      have key : ∀ (single : Bool) (vals : List (A F)),
          ((toArrs single i).bind fun acc => match (vals.map (fun a : A F => a.shape[axis]?)).dedup with
            | [some n] =>
              (mapOpt (NArr.unsqueeze [axis]) acc).bind fun acc =>
              (redLoopD (redGet single x y body) axis (n + 1) n acc vals env).bind fun s =>
              (if n ≠ 0 then (delKey (.var x) s.2).bind (delKey (.var y)) else some s.2).bind fun e =>
              (mapOpt (NArr.squeeze [axis]) s.1).bind fun acc => (ofArrs single acc).map fun v => (v, e)
            | _ => none) =
          ((toArrs single i).bind fun acc => match (vals.map (fun a : A F => a.shape[axis]?)).dedup with
            | [some n] =>
              (mapOpt (NArr.unsqueeze [axis]) acc).bind fun acc =>
              (redLoop (fun l r => (ofArrs single l).bind fun p => (ofArrs single r).bind fun q =>
                (g ((env.set (.var x) (some p)).set (.var y) (some q))).bind (toArrs single)) axis (n + 1) n acc
                  vals).bind fun acc =>
              (mapOpt (NArr.squeeze [axis]) acc).bind (ofArrs single)
            | _ => none).map (·, env) := by
        intro single vals
        cases toArrs single i with
        | none => rfl
        | some acc =>
          simp only [Option.bind_some]
          split
          · rename_i n _
            cases mapOpt (NArr.unsqueeze [axis]) acc with
            | none => rfl
            | some acc =>
              simp only [Option.bind_some]
              obtain ⟨o, p, h0, h1, e⟩ := redLoopD_eq (axis := axis) (single := single) hxy hb (n + 1) n acc vals none
                none
              rw [set_none _ hx, set_none _ hy] at h1 e
              rw [e] at h1 ⊢
              revert h1
              generalize redLoop (fun l r => (ofArrs single l).bind fun p => (ofArrs single r).bind fun q =>
                (g ((env.set (.var x) (some p)).set (.var y) (some q))).bind (toArrs single)) axis (n + 1) n acc vals = r
              intro h1
              cases r with
              | none => rfl
              | some r =>
                simp only [Option.map_some, Option.bind_some]
                have hend : (if n ≠ 0 then (delKey (.var x) ((env.set (.var x) o).set (.var y) p)).bind
                    (delKey (.var y)) else some ((env.set (.var x) o).set (.var y) p)) = some env := by
                  by_cases hn : n = 0
                  · obtain ⟨rfl, rfl⟩ := h0 hn
                    rw [if_neg (by simpa using hn), set_none _ hx, set_none _ hy]
                  · obtain ⟨h2, h3⟩ := h1 hn (by simp)
                    obtain ⟨u, rfl⟩ := Option.isSome_iff_exists.1 h2
                    obtain ⟨w, rfl⟩ := Option.isSome_iff_exists.1 h3
                    rw [if_pos hn]
                    simp only [delKey]
                    rw [set_comm _ hne, get_set, Option.bind_some, Option.bind_some, set_set,
                      set_comm _ hne.symm]
                    unfold delKey
                    rw [get_set, Option.bind_some, set_set, set_none _ hx, set_none _ hy]
                rw [hend, Option.bind_some]
                cases mapOpt (NArr.squeeze [axis]) r with
                | none => rfl
                | some r => cases ofArrs single r <;> rfl
          · rfl
      cases v with
      | arr a => exact key true [a]
      | tup as => exact key false as

/-! ### The dictionary is restored -/

/-- `staged` restores the dictionary and computes the lexically scoped value. -/
theorem staged_eq (J : YExt F) (e : YExpr F) : NoShadow e → (∀ u, Occurs u e → Different u.head) →
    ∀ env : Env (YVal F), (∀ s ∈ binders e, env s = none) →
      staged J e env = (Yarr.eval J e env).map (·, env) := by
  induction e using ind with
  | step h ts ih =>
    intro hns hd env hb
    have ih1 : ∀ t ∈ ts, staged J t env = (Yarr.eval J t env).map (·, env) := fun t ht =>
      ih t ht (hns.children t ht) (fun u hu => hd u (.child ht hu)) env
        (fun s hs => hb s (binders_child_subset ht hs))
    have ih2 : ∀ t ∈ ts, ∀ env' : Env (YVal F), (∀ s, s ∉ h.captured → env' s = env s) →
        staged J t env' = (Yarr.eval J t env').map (·, env') := fun t ht env' he => by
      refine ih t ht (hns.children t ht) (fun u hu => hd u (.child ht hu)) env' (fun s hs => ?_)
      rw [he s (fun hc => Finset.disjoint_left.1 (hns.disjoint t ht) hc hs)]
      exact hb s (binders_child_subset ht hs)
    have hcap : ∀ s ∈ h.captured, env s = none := fun s hs => hb s (captured_subset_binders hs)
    have hdist : Different h := hd _ (.refl _)
    have hplain : plainHead h = true → ((seqM (ts.map (staged J)) env).bind fun rs =>
        (Yarr.den J h (rs.1.map fun v _ => some v) rs.2).map (·, rs.2)) =
          (Yarr.den J h (ts.map (Yarr.eval J)) env).map (·, env) := by
      intro hh
      rw [den_plain J hh, seqM_eq (gs := ts.map (Yarr.eval J))]
      · cases mapOpt (fun g => g env) (ts.map (Yarr.eval J)) <;> rfl
      · rw [List.forall₂_map_left_iff, List.forall₂_map_right_iff, List.forall₂_same]
        exact ih1
    rw [staged_node, Yarr.eval_node]
    cases h with
    | const v τ => rfl
    | var v τ => rfl
    | letv v =>
      rcases ts with _ | ⟨t1, _ | ⟨t2, _ | ⟨t3, ts⟩⟩⟩ <;> try rfl
      simp only [List.map, stageDen, Yarr.den]
      exact letImpl_eq (hcap _ (by simp [Yarr.Head.captured])) (ih1 t1 (by simp)) fun x =>
        ih2 t2 (by simp) _ fun s hs => get_set_ne _ (by simpa [Yarr.Head.captured] using hs) _
    | fold c a =>
      rcases ts with _ | ⟨t1, _ | ⟨t2, _ | ⟨t3, _ | ⟨t4, ts⟩⟩⟩⟩ <;> try rfl
      simp only [List.map, stageDen, Yarr.den]
      rw [foldImpl_eq (hdist : c ≠ a) (hcap _ (by simp [Yarr.Head.captured])) (hcap _ (by simp [Yarr.Head.captured]))
        (ih1 t1 (by simp)) (ih1 t2 (by simp)) fun acc r => ih2 t3 (by simp) _ fun s hs => by
          simp only [Yarr.Head.captured, Finset.mem_insert, Finset.mem_singleton, not_or] at hs
          rw [get_set_ne _ hs.1, get_set_ne _ hs.2]]
      congr 1
      cases Yarr.eval J t1 env with
      | none => cases Yarr.eval J t2 env <;> rfl
      | some k =>
        cases Yarr.eval J t2 env with
        | none => simp
        | some z => simp
    | reduce x y axis =>
      rcases ts with _ | ⟨t1, _ | ⟨t2, _ | ⟨t3, _ | ⟨t4, ts⟩⟩⟩⟩ <;> try rfl
      simp only [List.map, stageDen, Yarr.den]
      exact reduceImpl_eq (hdist : x ≠ y) (hcap _ (by simp [Yarr.Head.captured]))
        (hcap _ (by simp [Yarr.Head.captured])) (ih1 t1 (by simp)) (ih1 t3 (by simp)) fun p q =>
          ih2 t2 (by simp) _ fun s hs => by
            simp only [Yarr.Head.captured, Finset.mem_insert, Finset.mem_singleton, not_or] at hs
            rw [get_set_ne _ hs.2, get_set_ne _ hs.1]
    | _ => exact hplain rfl

end Verif.Backend
