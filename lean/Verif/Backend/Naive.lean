import Verif.Backend.Dict

/-!
The reference interpreter with its destructively updated dictionary
(`_interpret`, `ein/backend/naive.py:14-85`).
-/

set_option linter.unusedSectionVars false

namespace Verif.Backend
open Verif.Phi Verif.Term
variable {F : Type} [FloatOps F]

/-- The loop of `Fold` (`naive.py:30-32`); the accumulator lives in the dictionary. -/
def foldLoop (c a : Nat) (body : Mut (D F)) : List Nat → Env (D F) → Option (Env (D F))
  | [], env => some env
  | i :: is, env => (body (env.set (.var c) (some (.int i)))).bind fun r =>
      foldLoop c a body is (r.2.set (.var a) (some r.1))

/-- The end of `Fold` (`naive.py:33-35`): `if n: del env[counter]`, `return env.pop(acc_v)`. -/
def foldEnd (c a : Nat) (n : Int) (env : Env (D F)) : Option (D F × Env (D F)) :=
  (if n ≠ 0 then delKey (.var c) env else some env).bind fun env' =>
    (env' (.var a)).bind fun v => some (v, env'.set (.var a) none)

/-- `Fold` (`naive.py:27-35`) -/
def foldM (c a : Nat) (size init body : Mut (D F)) : Mut (D F) := fun env =>
  (size env).bind fun rn => (rn.1.asInt).bind fun n =>
    (init rn.2).bind fun ri =>
      (foldLoop c a body (List.range n.toNat) (ri.2.set (.var a) (some ri.1))).bind (foldEnd c a n)

/-- `Reduce` (`naive.py:36-48`); vectors of different lengths fail at `(n,) = {…}`. -/
def reduceM (x y : Nat) (init body : Mut (D F)) (vecs : List (Mut (D F))) : Mut (D F) := fun env =>
  (seqM vecs env).bind fun rv => (mapOpt Val.asVec rv.1).bind fun vs =>
    match vs with
    | [] => none
    | l :: ls =>
      if ls.all (fun l' => decide (l'.length = l.length)) then
        (init rv.2).bind fun ri =>
          (reduceLoop x y (rowAt vs) body (List.range l.length) ri.1 ri.2).bind (reduceEnd x y l.length)
      else none

/-- `Vec` (`naive.py:17-26`): the body is evaluated in a fresh copy of the dictionary. -/
def vecM (i : Nat) (size body : Mut (D F)) : Mut (D F) := fun env =>
  (size env).bind fun rn =>
    (vecOf (some rn.1) (fun k => (body (rn.2.set (.idx i) (some (.int k)))).map Prod.fst)).map
      (fun v => (v, rn.2))

/-- `AssertEq` (`naive.py:61-63`): the operands first, then the target. -/
def assertM (target : Mut (D F)) (ops : List (Mut (D F))) : Mut (D F) := fun env =>
  (seqM ops env).bind fun rs =>
    match mapOpt Val.asInt rs.1 with
    | some (n :: rest) => if rest.all (fun m => decide (m = n)) then target rs.2 else none
    | _ => none

/-- A node whose sub-terms are all evaluated, from left to right, before it is computed. -/
def plainM (fs : List (Mut (D F))) (f : List (D F) → Option (D F)) : Mut (D F) := fun env =>
  (seqM fs env).bind fun rs => (f rs.1).map fun v => (v, rs.2)

/-- One node of `_interpret` (`naive.py:14-85`). `Let` evaluates its body in a copy of the dictionary
(`naive.py:70-71`). -/
def interpDen (I : Ext F) : Head F → List (Mut (D F)) → Mut (D F)
  | .const v _, _ => fun env => some (v, env)
  | .store s _, _ => fun env => (env s).map fun v => (v, env)
  | .letv v, [f, g] => fun env => (f env).bind fun r =>
      (g (r.2.set (.var v) (some r.1))).map fun q => (q.1, r.2)
  | .assertEq, f :: ops => assertM f ops
  | .dim k, [f] => plainM [f] fun vs => match vs with | [v] => dimOf k (some v) | _ => none
  | .get, [f, g] => plainM [f, g] fun vs => match vs with | [v, w] => getOf (some v) (some w) | _ => none
  | .concat, [f, g] => plainM [f, g] fun vs =>
      match vs with | [v, w] => concatOf (some v) (some w) | _ => none
  | .cons, [f, g] => plainM [f, g] fun vs =>
      match vs with | [v, w] => consOf (some v) (some w) | _ => none
  | .fst, [f] => plainM [f] fun vs => match vs with | [v] => fstOf (some v) | _ => none
  | .snd, [f] => plainM [f] fun vs => match vs with | [v] => sndOf (some v) | _ => none
  | .vec i, [n, b] => vecM i n b
  | .fold c a, [n, z, b] => foldM c a n z b
  | .reduce x y, z :: b :: vs => reduceM x y z b vs
  | .op o, fs => plainM fs fun vs => opOf o (vs.map some)
  | .ext fn _, fs => plainM fs fun vs => extOf I fn (vs.map some)
  | _, _ => fun _ => none

/-- `_interpret(expr, env)` with the dictionary made explicit. -/
def interp (I : Ext F) (e : Expr F) : Mut (D F) := cata (interpDen I) e

theorem interp_node (I : Ext F) (h : Head F) (ts : List (Expr F)) :
    interp I (node h ts) = interpDen I h (ts.map (interp I)) := cata_node _ _ _

/-! ### Lexically scoped evaluation -/

/-- `runDen`, except that a fold with a negative count fails: `if n: del env[counter]` raises a `KeyError`
when the loop did not run (`naive.py:33-34`). -/
def naiveDen (I : Ext F) : Head F → List (Env (D F) → Option (D F)) → Env (D F) → Option (D F)
  | .fold c a, [n, z, b], env =>
    ((n env).bind Val.asInt).bind fun k => if 0 ≤ k then runDen I (.fold c a) [n, z, b] env else none
  | h, fs, env => runDen I h fs env

/-- Lexically scoped meaning, failing on folds with negative counts. -/
def runNaive (I : Ext F) (e : Expr F) : Env (D F) → Option (D F) := cata (naiveDen I) e

theorem runNaive_node (I : Ext F) (h : Head F) (ts : List (Expr F)) :
    runNaive I (node h ts) = naiveDen I h (ts.map (runNaive I)) := cata_node _ _ _

theorem naiveDen_le (I : Ext F) (h : Head F) (fs : List (Env (D F) → Option (D F))) (env : Env (D F)) :
    Le (naiveDen I h fs env) (runDen I h fs env) := by
  unfold naiveDen
  split
  · intro v hv
    obtain ⟨k, _, hk⟩ := Option.bind_eq_some_iff.1 hv
    split_ifs at hk; exact hk
  · exact Le.rfl

/-- What the interpreter computes is what lexically scoped evaluation gives. -/
theorem runNaive_run (I : Ext F) (e : Expr F) : ∀ env, Le (runNaive I e env) (run I e env) := by
  induction e using ind with
  | step h ts ih =>
    intro env
    rw [runNaive_node, run_node]
    intro v hv
    refine runDen_mono I h _ _ env env (by simp) (fun _ _ => Le.rfl) ?_ v (naiveDen_le I _ _ _ v hv)
    intro k f g hf hg
    rw [List.getElem?_map] at hf hg
    cases ht : ts[k]? with
    | none => rw [ht] at hf; cases hf
    | some t =>
      rw [ht] at hf hg
      simp only [Option.map_some, Option.some.injEq] at hf hg
      subst hf hg
      have hm := List.mem_of_getElem? ht
      exact ⟨fun _ => ih t hm env, fun _ ext => ih t hm _⟩

/-- The binders of one node are different. -/
def Distinct : Head F → Prop
  | .fold c a => c ≠ a
  | .reduce x y => x ≠ y
  | _ => True

instance (h : Head F) : Decidable (Distinct h) := by unfold Distinct; split <;> infer_instance

/-! ### The dictionary is restored -/

theorem foldLoop_eq {c a : Nat} (hca : c ≠ a) (body : Mut (D F)) (g : Env (D F) → Option (D F))
    (env : Env (D F))
    (hb : ∀ (i : Nat) (acc : D F), body ((env.set (.var a) (some acc)).set (.var c) (some (.int i))) =
      (g ((env.set (.var a) (some acc)).set (.var c) (some (.int i)))).map
        (·, (env.set (.var a) (some acc)).set (.var c) (some (.int i)))) :
    ∀ (l : List Nat) (acc : D F) (o : Option (D F)),
      foldLoop c a body l ((env.set (.var a) (some acc)).set (.var c) o) =
        (loopOpt (fun acc (i : Nat) => g ((env.set (.var a) (some acc)).set (.var c) (some (.int i))))
          acc l).map (fun r => (env.set (.var a) (some r)).set (.var c)
            (l.getLast?.elim o (fun i => some (.int i)))) := by
  have hne : Sym.var c ≠ Sym.var a := fun h => hca (Sym.var.inj h)
  intro l
  induction l with
  | nil => intro acc o; rfl
  | cons i l ih =>
    intro acc o
    rw [foldLoop, set_set, hb, loopOpt]
    cases hg : g ((env.set (.var a) (some acc)).set (.var c) (some (.int i))) with
    | none => rfl
    | some r =>
      simp only [Option.map_some, Option.bind_some]
      rw [set_comm _ hne, set_set, ih]
      congr 1
      funext q
      cases l with
      | nil => simp
      | cons j l => rw [List.getLast?_cons_cons]; cases h : (j :: l).getLast? <;> simp at h ⊢

theorem foldEnd_eq {c a : Nat} (hca : c ≠ a) {n : Int} (hn : 0 ≤ n) (env : Env (D F)) (r : D F)
    (hc : env (.var c) = none) (ha : env (.var a) = none) :
    foldEnd c a n ((env.set (.var a) (some r)).set (.var c)
      ((List.range n.toNat).getLast?.elim none (fun i => some (.int i)))) = some (r, env) := by
  have hne : Sym.var c ≠ Sym.var a := fun h => hca (Sym.var.inj h)
  have hc' : (env.set (.var a) (some r)) (.var c) = none := by rw [get_set_ne _ hne, hc]
  unfold foldEnd delKey
  obtain ⟨k, rfl⟩ := Int.eq_ofNat_of_zero_le hn
  cases k with
  | zero => simp [set_none _ hc', get_set, set_set, set_none _ ha]
  | succ k =>
    rw [if_pos (by omega)]
    simp [List.range_succ, get_set, set_set, set_none _ hc', set_none _ ha]

/-- `interp` restores the dictionary and computes the lexically scoped value. -/
theorem interp_eq (I : Ext F) (e : Expr F) : NoShadow e → (∀ u, Occurs u e → Distinct u.head) →
    ∀ env : Env (D F), (∀ s ∈ binders e, env s = none) →
      interp I e env = (runNaive I e env).map (·, env) := by
  induction e using ind with
  | step h ts ih =>
    intro hns hd env hb
    have ih1 : ∀ t ∈ ts, interp I t env = (runNaive I t env).map (·, env) := fun t ht =>
      ih t ht (hns.children t ht) (fun u hu => hd u (.child ht hu)) env
        (fun s hs => hb s (binders_child_subset ht hs))
    have ih2 : ∀ t ∈ ts, ∀ env' : Env (D F), (∀ s, s ∉ Head.captured h → env' s = env s) →
        interp I t env' = (runNaive I t env').map (·, env') := fun t ht env' he => by
      refine ih t ht (hns.children t ht) (fun u hu => hd u (.child ht hu)) env' (fun s hs => ?_)
      rw [he s (fun hc => Finset.disjoint_left.1 (hns.disjoint t ht) hc hs)]
      exact hb s (binders_child_subset ht hs)
    have hcap : ∀ s ∈ Head.captured h, env s = none := fun s hs => hb s (captured_subset_binders hs)
    have hdist : Distinct h := hd _ (.refl _)
    have hseq : ∀ l : List (Expr F), (∀ t ∈ l, t ∈ ts) →
        seqM (l.map (interp I)) env = (mapOpt (fun t => runNaive I t env) l).map (·, env) := by
      intro l hl
      rw [seqM_eq (gs := l.map (runNaive I)), mapOpt_map]
      rw [List.forall₂_map_left_iff, List.forall₂_map_right_iff, List.forall₂_same]
      exact fun t ht => ih1 t (hl t ht)
    have hplain : ∀ (f : List (D F) → Option (D F)), plainM (ts.map (interp I)) f env =
        ((mapOpt (fun t => runNaive I t env) ts).bind f).map (·, env) := by
      intro f
      rw [plainM, hseq ts (fun _ h => h)]
      cases mapOpt (fun t => runNaive I t env) ts <;> simp
    rw [interp_node, runNaive_node]
    cases h with
    | const v τ => rfl
    | store s τ => rfl
    | letv v =>
      rcases ts with _ | ⟨t1, _ | ⟨t2, _ | ⟨t3, ts⟩⟩⟩ <;> try rfl
      simp only [List.map, interpDen, naiveDen, runDen, ih1 t1 (by simp)]
      cases runNaive I t1 env with
      | none => rfl
      | some x =>
        simp only [Option.map_some, Option.bind_some]
        rw [ih2 t2 (by simp) _ (fun s hs => get_set_ne _ (by simpa [Head.captured] using hs) _)]
        cases runNaive I t2 (env.set (.var v) (some x)) <;> rfl
    | vec i =>
      rcases ts with _ | ⟨t1, _ | ⟨t2, _ | ⟨t3, ts⟩⟩⟩ <;> try rfl
      simp only [List.map, interpDen, naiveDen, runDen, vecM, ih1 t1 (by simp)]
      cases runNaive I t1 env with
      | none => rfl
      | some n =>
        simp only [Option.map_some, Option.bind_some]
        congr 2
        funext k
        rw [ih2 t2 (by simp) _ (fun s hs => get_set_ne _ (by simpa [Head.captured] using hs) _)]
        cases runNaive I t2 (env.set (.idx i) (some (.int k))) <;> rfl
    | fold c a =>
      rcases ts with _ | ⟨t1, _ | ⟨t2, _ | ⟨t3, _ | ⟨t4, ts⟩⟩⟩⟩ <;> try rfl
      have hc : env (.var c) = none := hcap _ (by simp [Head.captured])
      have ha : env (.var a) = none := hcap _ (by simp [Head.captured])
      have hca : c ≠ a := hdist
      simp only [List.map, interpDen, naiveDen, runDen, foldM, foldOf, ih1 t1 (by simp)]
      cases runNaive I t1 env with
      | none => rfl
      | some nv =>
        simp only [Option.map_some, Option.bind_some]
        cases nv.asInt with
        | none => rfl
        | some n =>
          simp only [Option.bind_some, ih1 t2 (by simp)]
          cases runNaive I t2 env with
          | none => simp
          | some z =>
            simp only [Option.map_some, Option.bind_some]
            have h0 : (env.set (.var a) (some z)) (.var c) = none := by
              rw [get_set_ne _ (fun h => hca (Sym.var.inj h)), hc]
            rw [← set_none _ h0, foldLoop_eq hca (interp I t3) (runNaive I t3) env (fun i acc => ?_)]
            · by_cases hn : 0 ≤ n
              · rw [if_pos hn]
                cases loopOpt (fun acc (i : Nat) => runNaive I t3
                  ((env.set (.var a) (some acc)).set (.var c) (some (.int i)))) z
                    (List.range n.toNat) with
                | none => rfl
                | some r => exact foldEnd_eq hca hn env r hc ha
              · rw [if_neg hn]
                have : n.toNat = 0 := by omega
                have hn' : n ≠ 0 := by omega
                rw [this]
                simp [loopOpt, foldEnd, hn', delKey, get_set]
            · refine ih2 t3 (by simp) _ (fun s hs => ?_)
              simp only [Head.captured, Finset.mem_insert, Finset.mem_singleton, not_or] at hs
              rw [get_set_ne _ hs.1, get_set_ne _ hs.2]
    | reduce x y =>
      rcases ts with _ | ⟨t1, _ | ⟨t2, ts⟩⟩ <;> try rfl
      have hx : env (.var x) = none := hcap _ (by simp [Head.captured])
      have hy : env (.var y) = none := hcap _ (by simp [Head.captured])
      have hxy : x ≠ y := hdist
      simp only [List.map, interpDen, naiveDen, runDen, reduceM, reduceOf]
      rw [hseq ts (fun t ht => by simp [ht]), List.map_map, mapOpt_map]
      simp only [Function.comp]
      rw [mapOpt_bind (fun t => runNaive I t env)]
      cases mapOpt (fun t => runNaive I t env) ts with
      | none => rfl
      | some ws =>
        simp only [Option.map_some, Option.bind_some]
        cases mapOpt Val.asVec ws with
        | none => rfl
        | some vs =>
          simp only [Option.bind_some]
          rcases vs with _ | ⟨l, ls⟩
          · rfl
          · dsimp only
            split_ifs
            · rw [ih1 t1 (by simp)]
              cases runNaive I t1 env with
              | none => rfl
              | some z =>
                simp only [Option.map_some, Option.bind_some]
                obtain ⟨o', p', h1, h2, h3⟩ := reduceLoop_eq hxy (rowAt (l :: ls)) (interp I t2)
                  (runNaive I t2) env (fun acc r => by
                    refine ih2 t2 (by simp) _ (fun s hs => ?_)
                    simp only [Head.captured, Finset.mem_insert, Finset.mem_singleton, not_or] at hs
                    rw [get_set_ne _ hs.2, get_set_ne _ hs.1]) (List.range l.length) z none none
                rw [set_none _ hx, set_none _ hy] at h3
                rw [h3]
                cases loopOpt (fun acc i => (rowAt (l :: ls) i).bind fun r => runNaive I t2
                    ((env.set (.var x) (some acc)).set (.var y) (some r))) z (List.range l.length) with
                | none => rfl
                | some r =>
                  simp only [Option.map_some, Option.bind_some]
                  refine reduceEnd_eq hxy env r hx hy (fun h => ?_) (fun h => ?_)
                  · obtain ⟨rfl, rfl⟩ := h1 (by simp [h]); exact ⟨rfl, rfl⟩
                  · exact h2 (by simpa using h) r
            · rfl
    | assertEq =>
      rcases ts with _ | ⟨t1, ts⟩ <;> try rfl
      simp only [List.map, interpDen, naiveDen, runDen, assertM, assertOf]
      rw [hseq ts (fun t ht => by simp [ht]), List.map_map, mapOpt_map]
      simp only [Function.comp]
      rw [mapOpt_bind (fun t => runNaive I t env)]
      cases mapOpt (fun t => runNaive I t env) ts with
      | none => rfl
      | some ws =>
        simp only [Option.map_some, Option.bind_some]
        cases mapOpt Val.asInt ws with
        | none => rfl
        | some vs =>
          rcases vs with _ | ⟨l, ls⟩
          · rfl
          · simp only [Option.bind_some]
            split_ifs
            · exact ih1 t1 (by simp)
            · rfl
    | op o =>
      simp only [interpDen, naiveDen, runDen, hplain, opOf, List.map_map, mapOpt_map, Function.comp,
        Option.bind_some]
      rw [mapOpt_bind (fun t => runNaive I t env)]
      cases mapOpt (fun t => runNaive I t env) ts <;> rfl
    | ext fn τ =>
      simp only [interpDen, naiveDen, runDen, hplain, extOf, List.map_map, mapOpt_map, Function.comp,
        mapOpt_pure, Option.bind_some]
    | dim k | fst | snd =>
      rcases ts with _ | ⟨t1, _ | ⟨t2, ts⟩⟩ <;> try rfl
      simp only [List.map, interpDen, naiveDen, runDen] at hplain ⊢
      rw [hplain]
      simp only [mapOpt]
      cases runNaive I t1 env <;> rfl
    | get | concat | cons =>
      rcases ts with _ | ⟨t1, _ | ⟨t2, _ | ⟨t3, ts⟩⟩⟩ <;> try rfl
      simp only [List.map, interpDen, naiveDen, runDen] at hplain ⊢
      rw [hplain]
      simp only [mapOpt]
      cases h1 : runNaive I t1 env <;> cases h2 : runNaive I t2 env <;>
        simp [getOf, concatOf, consOf]

end Verif.Backend
