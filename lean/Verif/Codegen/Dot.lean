import Verif.Codegen.Reduction
import Verif.Codegen.Chain
import Verif.Codegen.Axes
import Mathlib.Algebra.BigOperators.Group.List.Lemmas
import Mathlib.Algebra.BigOperators.Ring.Finset
import Mathlib.Tactic.Ring

/-!
Sums of products (`ein/codegen/phi_to_yarr.py:431-506`), and their meaning.
-/

set_option linter.unusedSectionVars false

namespace Verif.Codegen
open Verif.Phi Verif.Term Verif.Yarr Verif.Arr Verif.Midend
variable {F : Type}

/-- `Dot` (`phi_to_yarr.py:446-449`): the counters over which one sums, with their sizes, and the products.
The program holds only the factors of a product. For the proofs a product comes with the counters of the
summations around it; the compiler does not read them. -/
structure Dot (F : Type) where
  contract : List (Nat × Expr F)
  summands : List (List (Nat × Expr F) × List (Expr F))
deriving DecidableEq

namespace Dot
variable [DecidableEq F]

/-- `products` (`phi_to_yarr.py:449`) -/
def products (d : Dot F) : List (List (Expr F)) := d.summands.map Prod.snd

/-- The counters. -/
def counters (d : Dot F) : List Nat := d.contract.map Prod.fst

/-- `Dot.pure` (`phi_to_yarr.py:457-459`) -/
def pure (e : Expr F) : Dot F := ⟨[], [([], [e])]⟩

/-- `Dot.sum` (`phi_to_yarr.py:461-463`) -/
def sum (d : Dot F) (c : Nat) (n : Expr F) : Option (Dot F) :=
  if c ∈ d.counters then none
  else some ⟨d.contract ++ [(c, n)], d.summands.map fun s => ((c, n) :: s.1, s.2)⟩

/-- `Dot._values_agree` (`phi_to_yarr.py:451-455`). The program compares identities of objects; equality of
expressions here. -/
def agree (d e : Dot F) : Bool :=
  d.contract.all fun p => e.contract.all fun q => decide (p.1 = q.1 → p.2 = q.2)

/-- The union of two dictionaries. -/
def union (d e : Dot F) : List (Nat × Expr F) := d.contract ++ e.contract.filter fun q => decide (q.1 ∉ d.counters)

/-- `Dot.__add__` (`phi_to_yarr.py:465-467`) -/
def add (d e : Dot F) : Option (Dot F) :=
  if d.agree e then some ⟨d.union e, d.summands ++ e.summands⟩ else none

/-- `Dot.__mul__` (`phi_to_yarr.py:469-477`), for sums with different counters. -/
def mul (d e : Dot F) : Dot F :=
  ⟨d.union e, d.summands.flatMap fun p => e.summands.map fun q => (p.1 ++ q.1, p.2 ++ q.2)⟩

/-- The first factor negated (`phi_to_yarr.py:482-485`). -/
def negHead : List (Expr F) → List (Expr F)
  | [] => []
  | e :: l => node (.op .negate) [e] :: l

/-- `Dot.__neg__` (`phi_to_yarr.py:479-486`) -/
def neg (d : Dot F) : Dot F := ⟨d.contract, d.summands.map fun s => (s.1, negHead s.2)⟩

end Dot

/-- `match_summation` (`phi_to_yarr.py:431-443`) -/
def matchSummation [DecidableEq F] [FloatOps F] (a : Nat) (z b : Expr F) : Option (Expr F) :=
  match matchReductionByBody b a with
  | some (elem, .add) =>
    if z = node (.const (.sc (.f (FloatOps.ofInt 0))) (.scalar .float)) [] then some elem else none
  | _ => none

/-- `Dot.lift` (`phi_to_yarr.py:491-506`); the depth of the recursion is bounded. -/
def lift [DecidableEq F] [FloatOps F] : Nat → Expr F → Option (Dot F)
  | 0, _ => none
  | k + 1, .node h ts =>
    match h, ts with
    | .fold c a, [n, z, b] =>
      match matchSummation a z b with
      | some elem => (lift k elem).bind fun d => d.sum c n
      | none => some (.pure (node h ts))
    | .op .add, [x, y] => (lift k x).bind fun d => (lift k y).bind fun e => d.add e
    | .op .negate, [x] => (lift k x).map Dot.neg
    | .op .subtract, [x, y] => (lift k x).bind fun d => (lift k y).bind fun e => d.add e.neg
    | .op .multiply, [x, y] => (lift k x).bind fun d => (lift k y).bind fun e =>
      if ∀ c ∈ d.counters, c ∉ e.counters then some (d.mul e) else some (.pure (node h ts))
    | h, ts => some (.pure (node h ts))

/-! ### The value of a sum of products -/

/-- `+`, `*`, … on floats are those of a commutative ring. -/
class RingFloat (F : Type) [CommRing F] [FloatOps F] : Prop where
  zero : (FloatOps.ofInt 0 : F) = 0
  neg : ∀ x : F, FloatOps.neg x = -x
  add : ∀ x y : F, FloatOps.add x y = x + y
  sub : ∀ x y : F, FloatOps.sub x y = x - y
  mul : ∀ x y : F, FloatOps.mul x y = x * y

instance (priority := low) {F : Type} [Field F] [LinearOrder F] [FloatOps F] [ExactFloat F] : RingFloat F where
  zero := by simp [ExactFloat.ofInt]
  neg := ExactFloat.neg
  add := ExactFloat.add
  sub := ExactFloat.sub
  mul := ExactFloat.mul

theorem sum_range_list [CommRing F] (m : Nat) (f : Nat → F) : ((List.range m).map f).sum = ∑ j ∈ Finset.range m, f j := by
  induction m with
  | zero => simp
  | succ m ih => rw [List.range_succ, List.map_append, List.sum_append, ih, Finset.sum_range_succ]; simp

section
variable [CommRing F] [FloatOps F] [DecidableEq F]

/-- The float in a value, 0 if there is none. -/
def floatOf : Option (D F) → F
  | some (.sc (.f x)) => x
  | _ => 0

/-- The natural number in a value, 0 if there is none. -/
def countOf : Option (D F) → Nat
  | some (.sc (.i m)) => m.toNat
  | _ => 0

/-- The product of the factors. -/
def prodOf (I : Ext F) (p : List (Expr F)) (env : Env (D F)) : F := (p.map fun f => floatOf (run I f env)).prod

/-- The nested sums of the product of the factors, one for each counter. -/
def nested (I : Ext F) : List (Nat × Expr F) → List (Expr F) → Env (D F) → F
  | [], p, env => prodOf I p env
  | (c, n) :: cs, p, env =>
    ∑ j ∈ Finset.range (countOf (run I n env)), nested I cs p (env.set (.var c) (some (.int j)))

theorem nested_cons (I : Ext F) (c : Nat) (n : Expr F) (cs : List (Nat × Expr F)) (p : List (Expr F)) (env : Env (D F)) :
    nested I ((c, n) :: cs) p env =
      ∑ j ∈ Finset.range (countOf (run I n env)), nested I cs p (env.set (.var c) (some (.int j))) := rfl

/-- The sum of all summands. -/
def total (I : Ext F) (d : Dot F) (env : Env (D F)) : F := (d.summands.map fun s => nested I s.1 s.2 env).sum

/-- The symbols that a summand mentions. -/
def Mentions (cs : List (Nat × Expr F)) (p : List (Expr F)) (s : Sym) : Prop :=
  (∃ f ∈ p, s ∈ fv f) ∨ ∃ q ∈ cs, s ∈ fv q.2

theorem set_agree {env env' : Env (D F)} {s t : Sym} {v : Option (D F)} (h : env s = env' s) :
    (env.set t v) s = (env'.set t v) s := by
  simp only [Env.set, h]

theorem prodOf_agree (I : Ext F) {p : List (Expr F)} (hp : ∀ f ∈ p, Scoped f) {env env' : Env (D F)}
    (h : ∀ f ∈ p, ∀ s ∈ fv f, env s = env' s) : prodOf I p env = prodOf I p env' := by
  unfold prodOf
  congr 1
  refine List.map_congr_left fun f hf => ?_
  rw [run_agree (hp f hf) fun s hs => h f hf s hs]

theorem nested_agree (I : Ext F) {cs : List (Nat × Expr F)} {p : List (Expr F)} (hp : ∀ f ∈ p, Scoped f)
    (hc : ∀ q ∈ cs, Scoped q.2) : ∀ env env' : Env (D F), (∀ s, Mentions cs p s → env s = env' s) →
      nested I cs p env = nested I cs p env' := by
  induction cs with
  | nil => exact fun env env' h => prodOf_agree I hp fun f hf s hs => h s (.inl ⟨f, hf, hs⟩)
  | cons q cs ih =>
    obtain ⟨c, n⟩ := q
    intro env env' h
    unfold nested
    rw [run_agree (hc (c, n) (by simp)) fun s hs => h s (.inr ⟨(c, n), by simp, hs⟩)]
    refine Finset.sum_congr rfl fun j _ => ih (fun q hq => hc q (by simp [hq])) _ _ fun s hs => set_agree (h s ?_)
    rcases hs with hs | ⟨q, hq, hs⟩
    · exact .inl hs
    · exact .inr ⟨q, by simp [hq], hs⟩

theorem nested_set (I : Ext F) {cs : List (Nat × Expr F)} {p : List (Expr F)} (hp : ∀ f ∈ p, Scoped f)
    (hc : ∀ q ∈ cs, Scoped q.2) {t : Sym} (ht : ¬ Mentions cs p t) (env : Env (D F)) (v : Option (D F)) :
    nested I cs p (env.set t v) = nested I cs p env :=
  nested_agree I hp hc _ _ fun s hs => by
    have : s ≠ t := fun e => ht (e ▸ hs)
    simp [Env.set, this]

theorem prodOf_append (I : Ext F) (p q : List (Expr F)) (env : Env (D F)) :
    prodOf I (p ++ q) env = prodOf I p env * prodOf I q env := by
  simp [prodOf]

/-- A product of sums is a sum of products. -/
theorem nested_append (I : Ext F) {cs ds : List (Nat × Expr F)} {p q : List (Expr F)} (hp : ∀ f ∈ p, Scoped f)
    (hq : ∀ f ∈ q, Scoped f) (hd : ∀ r ∈ ds, Scoped r.2) (h1 : ∀ r ∈ ds, ∀ f ∈ p, Sym.var r.1 ∉ fv f)
    (h2 : ∀ r ∈ cs, ¬ Mentions ds q (.var r.1)) : ∀ env : Env (D F),
      nested I (cs ++ ds) (p ++ q) env = nested I cs p env * nested I ds q env := by
  induction cs with
  | nil =>
    show ∀ env : Env (D F), nested I ds (p ++ q) env = prodOf I p env * nested I ds q env
    clear h2
    induction ds with
    | nil => exact fun env => prodOf_append I p q env
    | cons r ds ih =>
      obtain ⟨c, n⟩ := r
      intro env
      unfold nested
      rw [Finset.mul_sum]
      refine Finset.sum_congr rfl fun j _ => ?_
      rw [ih (fun r hr => hd r (by simp [hr])) (fun r hr => h1 r (by simp [hr]))]
      congr 1
      refine prodOf_agree I hp fun f hf s hs => ?_
      have : s ≠ .var c := fun e => h1 (c, n) (by simp) f hf (e ▸ hs)
      simp [Env.set, this]
  | cons r cs ih =>
    obtain ⟨c, n⟩ := r
    intro env
    rw [List.cons_append, nested_cons, nested_cons, Finset.sum_mul]
    refine Finset.sum_congr rfl fun j _ => ?_
    rw [ih (fun r hr => h2 r (by simp [hr])), nested_set I hq hd (h2 (c, n) (by simp))]

theorem floatOf_neg [RingFloat F] (v : Option (D F)) : floatOf (opOf .negate [v]) = -floatOf v := by
  rcases v with _ | ((_ | _ | _) | _ | _) <;> simp [opOf, mapOpt, Val.asScal, floatOf, applyOp, RingFloat.neg]

theorem nested_neg [RingFloat F] (I : Ext F) (cs : List (Nat × Expr F)) {p : List (Expr F)} (hp : p ≠ []) :
    ∀ env : Env (D F), nested I cs (Dot.negHead p) env = -nested I cs p env := by
  induction cs with
  | nil =>
    intro env
    cases p with
    | nil => exact absurd rfl hp
    | cons f p =>
      show prodOf I (_ :: p) env = - prodOf I (f :: p) env
      simp only [prodOf, List.map_cons, List.prod_cons, run_node, List.map_nil, runDen]
      rw [floatOf_neg, neg_mul]
  | cons r cs ih =>
    obtain ⟨c, n⟩ := r
    intro env
    unfold nested
    rw [← Finset.sum_neg_distrib]
    exact Finset.sum_congr rfl fun j _ => ih _

/-- A loop that adds up floats. -/
theorem loop_sum [RingFloat F] (g : Nat → Option (D F)) (l : List Nat) : ∀ (z w : F),
    loopOpt (fun acc (j : Nat) => opOf .add [some acc, g j]) (.sc (.f z)) l = some (.sc (.f w)) →
      (∀ j ∈ l, ∃ x, g j = some (.sc (.f x))) ∧ w = z + (l.map fun j => floatOf (g j)).sum := by
  induction l with
  | nil =>
    intro z w h
    simp only [loopOpt, Option.some.injEq, Val.sc.injEq, Scal.f.injEq] at h
    simp [h]
  | cons j l ih =>
    intro z w h
    rw [loopOpt_cons] at h
    obtain ⟨v, h1, h2⟩ := Option.bind_eq_some_iff.1 h
    have hg : ∃ x, g j = some (.sc (.f x)) ∧ v = .sc (.f (z + x)) := by
      generalize hgj : g j = y at h1 ⊢
      rcases y with _ | ((_ | _ | _) | _ | _) <;> simp [opOf, mapOpt, Val.asScal, applyOp] at h1
      exact ⟨_, rfl, by rw [← h1, RingFloat.add]⟩
    obtain ⟨x, hx, rfl⟩ := hg
    obtain ⟨h3, h4⟩ := ih _ _ h2
    refine ⟨fun k hk => ?_, ?_⟩
    · rcases List.mem_cons.1 hk with rfl | hk
      · exact ⟨x, hx⟩
      · exact h3 k hk
    · rw [h4, List.map_cons, List.sum_cons, hx]
      simp only [floatOf]
      ring

/-! ### What the normal form mentions -/

/-- No element of a reduction mentions the accumulator. -/
def AccFree (e : Expr F) : Prop := ∀ c a n z b elem r, Occurs (fold c a n z b) e →
  matchReductionByBody b a = some (elem, r) → Sym.var a ∉ fv elem

/-- Does no element of a reduction mention the accumulator? -/
def accFreeAt : Expr F → Bool
  | .node (.fold _ a) [_, _, b] =>
    match matchReductionByBody b a with
    | some (elem, _) => decide (Sym.var a ∉ fv elem)
    | none => true
  | _ => true

theorem accFree_of {e : Expr F} (h : ∀ u ∈ occurrences e, accFreeAt u = true) : AccFree e := by
  intro c a n z b elem r ho hb
  have := h _ (mem_occurrences.2 ho)
  simp only [fold, accFreeAt, hb] at this
  exact of_decide_eq_true this

theorem AccFree.child {h : Phi.Head F} {ts : List (Expr F)} (hf : AccFree (node h ts)) {t : Expr F} (ht : t ∈ ts) :
    AccFree t := fun c a n z b elem r ho => hf c a n z b elem r (.child ht ho)

omit [CommRing F] [FloatOps F] in
theorem body_child {b elem : Expr F} {a : Nat} {r : RedKind} (h : matchReductionByBody b a = some (elem, r)) :
    ∃ f ts, b = node (.op f) ts ∧ elem ∈ ts := by
  unfold matchReductionByBody at h
  split at h
  · obtain ⟨k, _, h'⟩ := Option.bind_eq_some_iff.1 h
    split at h'
    · cases h'; exact ⟨_, _, rfl, by simp⟩
    · split at h'
      · cases h'; exact ⟨_, _, rfl, by simp⟩
      · cases h'
  · cases h

omit [CommRing F] in
theorem matchSummation_some {a : Nat} {z b elem : Expr F} (h : matchSummation a z b = some elem) :
    matchReductionByBody b a = some (elem, .add) ∧
      z = node (.const (.sc (.f (FloatOps.ofInt 0))) (.scalar .float)) [] := by
  unfold matchSummation at h
  split at h
  · split at h
    · cases h
      exact ⟨by assumption, by assumption⟩
    · cases h
  · cases h

/-- What is known about the normal form of an expression, with symbols `S` in scope around it. -/
structure LiftInv (e : Expr F) (S : Finset Sym) (d : Dot F) : Prop where
  inhabited : d.summands ≠ []
  nonempty : ∀ s ∈ d.summands, s.2 ≠ []
  sub : ∀ s ∈ d.summands, ∀ q ∈ s.1, q ∈ d.contract
  cover : ∀ q ∈ d.contract, ∃ s ∈ d.summands, q ∈ s.1
  keys : d.counters.Nodup
  own : ∀ s ∈ d.summands, (s.1.map Prod.fst).Nodup
  fresh : ∀ q ∈ d.contract, Sym.var q.1 ∉ S
  factors : ∀ s ∈ d.summands, ∀ f ∈ s.2, Scoped f ∧ ∀ x ∈ fv f, x ∈ fv e ∨ ∃ q ∈ s.1, x = .var q.1
  sizes : ∀ s ∈ d.summands, ∀ q ∈ s.1, Scoped q.2 ∧ ∀ x ∈ fv q.2, x ∈ fv e ∨ ∃ r ∈ s.1, x = .var r.1

theorem pure_inv {e : Expr F} (hs : Scoped e) (S : Finset Sym) : LiftInv e S (.pure e) where
  inhabited := by simp [Dot.pure]
  nonempty := by simp [Dot.pure]
  sub := by simp [Dot.pure]
  cover := by simp [Dot.pure]
  keys := by simp [Dot.pure, Dot.counters]
  own := by simp [Dot.pure]
  fresh := by simp [Dot.pure]
  factors := by simpa [Dot.pure] using hs
  sizes := by simp [Dot.pure]

theorem mem_counters {d : Dot F} {c : Nat} : c ∈ d.counters ↔ ∃ n, (c, n) ∈ d.contract := by
  simp [Dot.counters]

omit [CommRing F] [FloatOps F] in
theorem mem_union {d e : Dot F} {q : Nat × Expr F} (h : q ∈ d.union e) : q ∈ d.contract ∨ q ∈ e.contract := by
  simp only [Dot.union, List.mem_append, List.mem_filter] at h
  exact h.imp_right And.left

theorem union_left {d e : Dot F} {q : Nat × Expr F} (h : q ∈ d.contract) : q ∈ d.union e := by
  simp [Dot.union, h]

theorem union_right {d e : Dot F} (ha : d.agree e = true) {q : Nat × Expr F} (h : q ∈ e.contract) : q ∈ d.union e := by
  by_cases hq : q.1 ∈ d.counters
  · obtain ⟨n, hn⟩ := mem_counters.1 hq
    unfold Dot.agree at ha
    have h1 := List.all_eq_true.1 (List.all_eq_true.1 ha _ hn) _ h
    have : n = q.2 := (of_decide_eq_true h1) rfl
    exact union_left (by rw [this] at hn; exact hn)
  · simp [Dot.union, h, hq]

theorem union_keys {d e : Dot F} (hd : d.counters.Nodup) (he : e.counters.Nodup) :
    ((d.union e).map Prod.fst).Nodup := by
  unfold Dot.union
  rw [List.map_append, List.nodup_append]
  refine ⟨hd, (he.sublist (List.filter_sublist.map _)), ?_⟩
  intro a ha b hb e'
  subst e'
  obtain ⟨q, hq, rfl⟩ := List.mem_map.1 hb
  exact (of_decide_eq_true (List.mem_filter.1 hq).2) ha

theorem agree_of_disjoint {d e : Dot F} (h : ∀ c ∈ d.counters, c ∉ e.counters) : d.agree e = true := by
  refine List.all_eq_true.2 fun p hp => List.all_eq_true.2 fun q hq => decide_eq_true fun e' => ?_
  exact absurd (List.mem_map.2 ⟨q, hq, rfl⟩) (e' ▸ h p.1 (List.mem_map.2 ⟨p, hp, rfl⟩))

omit [CommRing F] [FloatOps F] [DecidableEq F] in
theorem fv_op {f : ScalarOp} {ts : List (Expr F)} {s : Sym} : s ∈ fv (node (.op f) ts : Expr F) ↔ ∃ t ∈ ts, s ∈ fv t := by
  rw [mem_fv]
  constructor
  · rintro ⟨h | h, _⟩
    · cases h
    · exact h
  · intro h
    exact ⟨.inr h, by show s ∉ Phi.Head.captured _; simp [Phi.Head.captured]⟩

theorem add_inv {x y e : Expr F} {S : Finset Sym} {d d' r : Dot F} (hd : LiftInv x S d) (hd' : LiftInv y S d')
    (hx : fv x ⊆ fv e) (hy : fv y ⊆ fv e) (h : d.add d' = some r) : LiftInv e S r := by
  unfold Dot.add at h
  split at h
  · rename_i ha
    cases h
    refine ⟨?_, ?_, ?_, ?_, union_keys hd.keys hd'.keys, ?_, ?_, ?_, ?_⟩
    · simp [hd.inhabited]
    · intro s hs
      rcases List.mem_append.1 hs with hs | hs
      · exact hd.nonempty s hs
      · exact hd'.nonempty s hs
    · intro s hs q hq
      rcases List.mem_append.1 hs with hs | hs
      · exact union_left (hd.sub s hs q hq)
      · exact union_right ha (hd'.sub s hs q hq)
    · intro q hq
      rcases mem_union hq with hq | hq
      · obtain ⟨s, hs, h⟩ := hd.cover q hq
        exact ⟨s, by simp [hs], h⟩
      · obtain ⟨s, hs, h⟩ := hd'.cover q hq
        exact ⟨s, by simp [hs], h⟩
    · intro s hs
      rcases List.mem_append.1 hs with hs | hs
      · exact hd.own s hs
      · exact hd'.own s hs
    · intro q hq
      rcases mem_union hq with hq | hq
      · exact hd.fresh q hq
      · exact hd'.fresh q hq
    · intro s hs f hf
      rcases List.mem_append.1 hs with hs | hs
      · obtain ⟨h1, h2⟩ := hd.factors s hs f hf
        exact ⟨h1, fun x hx' => (h2 x hx').imp_left fun h => hx h⟩
      · obtain ⟨h1, h2⟩ := hd'.factors s hs f hf
        exact ⟨h1, fun x hx' => (h2 x hx').imp_left fun h => hy h⟩
    · intro s hs f hf
      rcases List.mem_append.1 hs with hs | hs
      · obtain ⟨h1, h2⟩ := hd.sizes s hs f hf
        exact ⟨h1, fun x hx' => (h2 x hx').imp_left fun h => hx h⟩
      · obtain ⟨h1, h2⟩ := hd'.sizes s hs f hf
        exact ⟨h1, fun x hx' => (h2 x hx').imp_left fun h => hy h⟩
  · cases h

omit [CommRing F] [FloatOps F] in
theorem mem_negHead {p : List (Expr F)} {f : Expr F} (h : f ∈ Dot.negHead p) :
    f ∈ p ∨ ∃ g ∈ p, f = node (.op .negate) [g] := by
  cases p with
  | nil => simp [Dot.negHead] at h
  | cons e l =>
    simp only [Dot.negHead, List.mem_cons] at h
    rcases h with h | h
    · exact .inr ⟨e, by simp, h⟩
    · exact .inl (by simp [h])

theorem scoped_op {f : ScalarOp} {ts : List (Expr F)} (h : ∀ t ∈ ts, Scoped t) : Scoped (node (.op f) ts : Expr F) :=
  .node (by
    intro k t _ _
    show Disjoint (Phi.Head.captured _) _
    simp [Phi.Head.captured]) h

theorem neg_inv {x : Expr F} {S : Finset Sym} {d : Dot F} (hd : LiftInv x S d) : LiftInv x S d.neg := by
  refine ⟨?_, ?_, ?_, ?_, hd.keys, ?_, hd.fresh, ?_, ?_⟩
  · simp [Dot.neg, hd.inhabited]
  · intro s hs
    obtain ⟨s, hm, rfl⟩ := List.mem_map.1 hs
    have := hd.nonempty s hm
    dsimp only
    cases h : s.2 with
    | nil => exact absurd h this
    | cons e l => simp [Dot.negHead]
  · intro s hs
    obtain ⟨s, hm, rfl⟩ := List.mem_map.1 hs
    exact hd.sub s hm
  · intro q hq
    obtain ⟨s, hs, h⟩ := hd.cover q hq
    exact ⟨_, List.mem_map.2 ⟨s, hs, rfl⟩, h⟩
  · intro s hs
    obtain ⟨s, hm, rfl⟩ := List.mem_map.1 hs
    exact hd.own s hm
  · intro s hs f hf
    obtain ⟨s, hm, rfl⟩ := List.mem_map.1 hs
    rcases mem_negHead hf with hf | ⟨g, hg, rfl⟩
    · exact hd.factors s hm f hf
    · obtain ⟨h1, h2⟩ := hd.factors s hm g hg
      refine ⟨scoped_op (by simpa using h1), fun x hx => h2 x ?_⟩
      simpa using fv_op.1 hx
  · intro s hs
    obtain ⟨s, hm, rfl⟩ := List.mem_map.1 hs
    exact hd.sizes s hm

theorem mul_inv {x y e : Expr F} {S : Finset Sym} {d d' : Dot F} (hd : LiftInv x S d) (hd' : LiftInv y S d')
    (hx : fv x ⊆ fv e) (hy : fv y ⊆ fv e) (h : ∀ c ∈ d.counters, c ∉ d'.counters) : LiftInv e S (d.mul d') := by
  have mem : ∀ {s}, s ∈ (d.mul d').summands → ∃ p ∈ d.summands, ∃ q ∈ d'.summands, s = (p.1 ++ q.1, p.2 ++ q.2) := by
    intro s hs
    obtain ⟨p, hp, hs⟩ := List.mem_flatMap.1 hs
    obtain ⟨q, hq, rfl⟩ := List.mem_map.1 hs
    exact ⟨p, hp, q, hq, rfl⟩
  refine ⟨?_, ?_, ?_, ?_, union_keys hd.keys hd'.keys, ?_, ?_, ?_, ?_⟩
  · obtain ⟨p, hp⟩ := List.exists_mem_of_ne_nil _ hd.inhabited
    obtain ⟨q, hq⟩ := List.exists_mem_of_ne_nil _ hd'.inhabited
    exact List.ne_nil_of_mem (List.mem_flatMap.2 ⟨p, hp, List.mem_map.2 ⟨q, hq, rfl⟩⟩)
  · intro s hs
    obtain ⟨p, hp, q, hq, rfl⟩ := mem hs
    simp [hd.nonempty p hp]
  · intro s hs r hr
    obtain ⟨p, hp, q, hq, rfl⟩ := mem hs
    rcases List.mem_append.1 hr with hr | hr
    · exact union_left (hd.sub p hp r hr)
    · exact union_right (agree_of_disjoint h) (hd'.sub q hq r hr)
  · intro r hr
    rcases mem_union hr with hr | hr
    · obtain ⟨p, hp, h1⟩ := hd.cover r hr
      obtain ⟨q, hq⟩ := List.exists_mem_of_ne_nil _ hd'.inhabited
      exact ⟨_, List.mem_flatMap.2 ⟨p, hp, List.mem_map.2 ⟨q, hq, rfl⟩⟩, by simp [h1]⟩
    · obtain ⟨p, hp⟩ := List.exists_mem_of_ne_nil _ hd.inhabited
      obtain ⟨q, hq, h1⟩ := hd'.cover r hr
      exact ⟨_, List.mem_flatMap.2 ⟨p, hp, List.mem_map.2 ⟨q, hq, rfl⟩⟩, by simp [h1]⟩
  · intro s hs
    obtain ⟨p, hp, q, hq, rfl⟩ := mem hs
    rw [List.map_append, List.nodup_append]
    refine ⟨hd.own p hp, hd'.own q hq, ?_⟩
    intro a ha b hb e'
    subst e'
    obtain ⟨r, hr, rfl⟩ := List.mem_map.1 ha
    obtain ⟨t, ht, e'⟩ := List.mem_map.1 hb
    exact h r.1 (List.mem_map.2 ⟨r, hd.sub p hp r hr, rfl⟩) (List.mem_map.2 ⟨t, hd'.sub q hq t ht, e'⟩)
  · intro q hq
    rcases mem_union hq with hq | hq
    · exact hd.fresh q hq
    · exact hd'.fresh q hq
  · intro s hs f hf
    obtain ⟨p, hp, q, hq, rfl⟩ := mem hs
    rcases List.mem_append.1 hf with hf | hf
    · obtain ⟨h1, h2⟩ := hd.factors p hp f hf
      exact ⟨h1, fun x hx' => (h2 x hx').imp (fun h => hx h) fun ⟨r, hr, e⟩ => ⟨r, by simp [hr], e⟩⟩
    · obtain ⟨h1, h2⟩ := hd'.factors q hq f hf
      exact ⟨h1, fun x hx' => (h2 x hx').imp (fun h => hy h) fun ⟨r, hr, e⟩ => ⟨r, by simp [hr], e⟩⟩
  · intro s hs f hf
    obtain ⟨p, hp, q, hq, rfl⟩ := mem hs
    rcases List.mem_append.1 hf with hf | hf
    · obtain ⟨h1, h2⟩ := hd.sizes p hp f hf
      exact ⟨h1, fun x hx' => (h2 x hx').imp (fun h => hx h) fun ⟨r, hr, e⟩ => ⟨r, by simp [hr], e⟩⟩
    · obtain ⟨h1, h2⟩ := hd'.sizes q hq f hf
      exact ⟨h1, fun x hx' => (h2 x hx').imp (fun h => hy h) fun ⟨r, hr, e⟩ => ⟨r, by simp [hr], e⟩⟩

theorem sum_inv {x e n : Expr F} {S S' : Finset Sym} {d r : Dot F} {c : Nat} (hd : LiftInv x S' d)
    (hS : ∀ s ∈ S, s ∈ S') (hc : Sym.var c ∈ S') (hcS : Sym.var c ∉ S) (hn : Scoped n) (hnf : fv n ⊆ fv e)
    (hx : ∀ s ∈ fv x, s ∈ fv e ∨ s = .var c) (h : d.sum c n = some r) : LiftInv e S r := by
  unfold Dot.sum at h
  split at h
  · cases h
  · rename_i hcc
    cases h
    have mem : ∀ {s}, s ∈ d.summands.map (fun s => ((c, n) :: s.1, s.2)) →
        ∃ p ∈ d.summands, s = ((c, n) :: p.1, p.2) := by
      intro s hs
      obtain ⟨p, hp, rfl⟩ := List.mem_map.1 hs
      exact ⟨p, hp, rfl⟩
    refine ⟨?_, ?_, ?_, ?_, ?_, ?_, ?_, ?_, ?_⟩
    · simp [hd.inhabited]
    · intro s hs
      obtain ⟨p, hp, rfl⟩ := mem hs
      exact hd.nonempty p hp
    · intro s hs q hq
      obtain ⟨p, hp, rfl⟩ := mem hs
      rcases List.mem_cons.1 hq with rfl | hq
      · simp
      · exact List.mem_append_left _ (hd.sub p hp q hq)
    · intro q hq
      rcases List.mem_append.1 hq with hq | hq
      · obtain ⟨p, hp, h1⟩ := hd.cover q hq
        exact ⟨_, List.mem_map.2 ⟨p, hp, rfl⟩, by simp [h1]⟩
      · obtain ⟨p, hp⟩ := List.exists_mem_of_ne_nil _ hd.inhabited
        exact ⟨_, List.mem_map.2 ⟨p, hp, rfl⟩, by simp at hq; simp [hq]⟩
    · unfold Dot.counters
      rw [List.map_append, List.nodup_append]
      refine ⟨hd.keys, by simp, ?_⟩
      intro a ha b hb e'
      simp at hb
      subst e' hb
      exact hcc ha
    · intro s hs
      obtain ⟨p, hp, rfl⟩ := mem hs
      rw [List.map_cons, List.nodup_cons]
      refine ⟨fun h => ?_, hd.own p hp⟩
      obtain ⟨q, hq, e'⟩ := List.mem_map.1 h
      exact hcc (List.mem_map.2 ⟨q, hd.sub p hp q hq, e'⟩)
    · intro q hq
      rcases List.mem_append.1 hq with hq | hq
      · exact fun h => hd.fresh q hq (hS _ h)
      · simp at hq; subst hq; exact hcS
    · intro s hs f hf
      obtain ⟨p, hp, rfl⟩ := mem hs
      obtain ⟨h1, h2⟩ := hd.factors p hp f hf
      refine ⟨h1, fun x hx' => ?_⟩
      rcases h2 x hx' with h | ⟨q, hq, e'⟩
      · rcases hx x h with h | h
        · exact .inl h
        · exact .inr ⟨(c, n), by simp, h⟩
      · exact .inr ⟨q, by simp [hq], e'⟩
    · intro s hs q hq
      obtain ⟨p, hp, rfl⟩ := mem hs
      rcases List.mem_cons.1 hq with rfl | hq
      · exact ⟨hn, fun x hx' => .inl (hnf hx')⟩
      · obtain ⟨h1, h2⟩ := hd.sizes p hp q hq
        refine ⟨h1, fun x hx' => ?_⟩
        rcases h2 x hx' with h | ⟨q, hq, e'⟩
        · rcases hx x h with h | h
          · exact .inl h
          · exact .inr ⟨(c, n), by simp, h⟩
        · exact .inr ⟨q, by simp [hq], e'⟩

theorem lexical_operand {f : ScalarOp} {ts : List (Expr F)} {S : Finset Sym}
    (h : lexical (node (.op f) ts : Expr F) S = true) : ∀ t ∈ ts, lexical t S = true := by
  rw [lexical_node] at h
  intro t ht
  exact List.all_eq_true.1 h _ (List.mem_map.2 ⟨t, ht, rfl⟩)

theorem lexical_fold {c a : Nat} {n z b : Expr F} {S : Finset Sym} (h : lexical (fold c a n z b) S = true) :
    lexical n S = true ∧ lexical z S = true ∧ Sym.var c ∉ S ∧ Sym.var a ∉ S ∧ c ≠ a ∧
      lexical b (insert (.var c) (insert (.var a) S)) = true := by
  unfold fold at h
  rw [lexical_node] at h
  simpa [lexStep, and_assoc] using h

theorem lift_inv : ∀ (k : Nat) (e : Expr F) (S : Finset Sym) (d : Dot F), lift k e = some d → Scoped e →
    lexical e S = true → AccFree e → LiftInv e S d := by
  intro k
  induction k with
  | zero => intro e S d h; simp [lift] at h
  | succ k ih =>
    rintro ⟨hd, ts⟩ S d h hs hl hf
    have sub : ∀ {f : ScalarOp} {ts : List (Expr F)} {t : Expr F}, t ∈ ts → fv t ⊆ fv (node (.op f) ts : Expr F) :=
      fun ht x hx => fv_op.2 ⟨_, ht, hx⟩
    simp only [lift] at h
    split at h
    · rename_i c a n z b
      split at h
      · rename_i elem hm
        obtain ⟨d', h1, h2⟩ := Option.bind_eq_some_iff.1 h
        obtain ⟨hb, -⟩ := matchSummation_some hm
        obtain ⟨f, ts, rfl, ht⟩ := body_child hb
        obtain ⟨l1, l2, l3, l4, l5, l6⟩ := lexical_fold (c := c) (a := a) hl
        have hc := hs.children
        have hd := ih elem _ d' h1 ((hc (node (.op f) ts) (by simp)).children _ ht) (lexical_operand l6 _ ht)
          ((hf.child (t := node (.op f) ts) (by simp)).child ht)
        have ha := hf c a n z _ elem _ (.refl _) hb
        have free : ∀ s ∈ fv n, s ∈ fv (node (.fold c a) [n, z, node (.op f) ts] : Expr F) := by
          intro s hs'
          refine mem_fv.2 ⟨.inr ⟨n, by simp, hs'⟩, ?_⟩
          have := lexical_fv _ _ l1 hs'
          show s ∉ Phi.Head.captured _
          simp only [Phi.Head.captured, Finset.mem_insert, Finset.mem_singleton]
          rintro (rfl | rfl)
          · exact l3 this
          · exact l4 this
        refine sum_inv hd (fun s h => by simp [h]) (by simp) l3 (hc _ (by simp)) free (fun s hs' => ?_) h2
        by_cases hsc : s = .var c
        · exact .inr hsc
        · refine .inl (mem_fv.2 ⟨.inr ⟨node (.op f) ts, by simp, sub ht hs'⟩, ?_⟩)
          show s ∉ Phi.Head.captured _
          simp only [Phi.Head.captured, Finset.mem_insert, Finset.mem_singleton]
          rintro (h | h)
          · exact hsc h
          · exact ha (h ▸ hs')
      · cases h; exact pure_inv hs S
    · rename_i x y
      obtain ⟨d1, h1, h⟩ := Option.bind_eq_some_iff.1 h
      obtain ⟨d2, h2, h⟩ := Option.bind_eq_some_iff.1 h
      exact add_inv (ih x S d1 h1 (hs.children _ (by simp)) (lexical_operand hl _ (by simp)) (hf.child (by simp)))
        (ih y S d2 h2 (hs.children _ (by simp)) (lexical_operand hl _ (by simp)) (hf.child (by simp)))
        (sub (by simp)) (sub (by simp)) h
    · rename_i x
      obtain ⟨d1, h1, rfl⟩ := Option.map_eq_some_iff.1 h
      have := neg_inv (ih x S d1 h1 (hs.children _ (by simp)) (lexical_operand hl _ (by simp)) (hf.child (by simp)))
      have e : fv x ⊆ fv (node (.op .negate) [x] : Expr F) := sub (by simp)
      exact { this with
        factors := fun s hs f hf => ⟨(this.factors s hs f hf).1, fun x hx =>
          ((this.factors s hs f hf).2 x hx).imp_left fun h => e h⟩
        sizes := fun s hs f hf => ⟨(this.sizes s hs f hf).1, fun x hx =>
          ((this.sizes s hs f hf).2 x hx).imp_left fun h => e h⟩ }
    · rename_i x y
      obtain ⟨d1, h1, h⟩ := Option.bind_eq_some_iff.1 h
      obtain ⟨d2, h2, h⟩ := Option.bind_eq_some_iff.1 h
      exact add_inv (ih x S d1 h1 (hs.children _ (by simp)) (lexical_operand hl _ (by simp)) (hf.child (by simp)))
        (neg_inv (ih y S d2 h2 (hs.children _ (by simp)) (lexical_operand hl _ (by simp)) (hf.child (by simp))))
        (sub (by simp)) (sub (by simp)) h
    · rename_i x y
      obtain ⟨d1, h1, h⟩ := Option.bind_eq_some_iff.1 h
      obtain ⟨d2, h2, h⟩ := Option.bind_eq_some_iff.1 h
      split at h
      · rename_i hdis
        cases h
        exact mul_inv (ih x S d1 h1 (hs.children _ (by simp)) (lexical_operand hl _ (by simp)) (hf.child (by simp)))
          (ih y S d2 h2 (hs.children _ (by simp)) (lexical_operand hl _ (by simp)) (hf.child (by simp)))
          (sub (by simp)) (sub (by simp)) hdis
      · cases h; exact pure_inv hs S
    · cases h; exact pure_inv hs S

/-! ### The normal form has the value of the expression -/

theorem sum_products {α : Type} (l m : List α) (A B : α → F) :
    (l.flatMap fun p => m.map fun q => A p * B q).sum = (l.map A).sum * (m.map B).sum := by
  induction l with
  | nil => simp
  | cons p l ih =>
    rw [List.flatMap_cons, List.sum_append, ih, List.map_cons, List.sum_cons, add_mul, List.sum_map_mul_left]

theorem total_mul (I : Ext F) {x y : Expr F} {S : Finset Sym} {d e : Dot F} (hd : LiftInv x S d)
    (he : LiftInv y S e) (hx : fv x ⊆ S) (hy : fv y ⊆ S) (h : ∀ c ∈ d.counters, c ∉ e.counters) (env : Env (D F)) :
    total I (d.mul e) env = total I d env * total I e env := by
  unfold total
  rw [← sum_products]
  show (List.map _ (List.flatMap _ _)).sum = _
  rw [List.map_flatMap]
  congr 1
  refine List.flatMap_congr fun p hp => ?_
  rw [List.map_map]
  refine List.map_congr_left fun q hq => ?_
  refine nested_append I (fun f hf => (hd.factors p hp f hf).1) (fun f hf => (he.factors q hq f hf).1)
    (fun r hr => (he.sizes q hq r hr).1) (fun r hr f hf hm => ?_) (fun r hr hm => ?_) env
  · rcases (hd.factors p hp f hf).2 _ hm with h' | ⟨t, ht, h'⟩
    · exact he.fresh r (he.sub q hq r hr) (hx h')
    · exact h t.1 (List.mem_map.2 ⟨t, hd.sub p hp t ht, rfl⟩)
        (List.mem_map.2 ⟨r, he.sub q hq r hr, Sym.var.inj h'⟩)
  · have key : ∀ s : Sym, (s ∈ fv y ∨ ∃ t ∈ q.1, s = .var t.1) → s ≠ .var r.1 := by
      rintro s (h' | ⟨t, ht, rfl⟩) e'
      · exact hd.fresh r (hd.sub p hp r hr) (hy (e' ▸ h'))
      · exact h r.1 (List.mem_map.2 ⟨r, hd.sub p hp r hr, rfl⟩)
          (List.mem_map.2 ⟨t, he.sub q hq t ht, Sym.var.inj e'⟩)
    rcases hm with ⟨f, hf, hm⟩ | ⟨t, ht, hm⟩
    · exact key _ ((he.factors q hq f hf).2 _ hm) rfl
    · exact key _ ((he.sizes q hq t ht).2 _ hm) rfl

theorem total_neg [RingFloat F] (I : Ext F) {d : Dot F} (hd : ∀ s ∈ d.summands, s.2 ≠ []) (env : Env (D F)) :
    total I d.neg env = -total I d env := by
  unfold total Dot.neg
  rw [List.map_map]
  generalize d.summands = l at hd
  induction l with
  | nil => simp
  | cons s l ih =>
    rw [List.map_cons, List.sum_cons, ih (fun s hs => hd s (by simp [hs])), List.map_cons, List.sum_cons, neg_add]
    congr 1
    exact nested_neg I s.1 (hd s (by simp)) env

theorem total_add (I : Ext F) {d e r : Dot F} (h : d.add e = some r) (env : Env (D F)) :
    total I r env = total I d env + total I e env := by
  unfold Dot.add at h
  split at h
  · cases h
    simp [total]
  · cases h

theorem total_sum (I : Ext F) {d r : Dot F} {c : Nat} {n : Expr F} (h : d.sum c n = some r) (env : Env (D F)) :
    total I r env = ∑ j ∈ Finset.range (countOf (run I n env)), total I d (env.set (.var c) (some (.int j))) := by
  unfold Dot.sum at h
  split at h
  · cases h
  · cases h
    unfold total
    rw [List.map_map]
    induction d.summands with
    | nil => simp
    | cons s l ih =>
      rw [List.map_cons, List.sum_cons, ih]
      simp only [List.map_cons, List.sum_cons, Finset.sum_add_distrib]
      rfl

theorem op_float [RingFloat F] {f : ScalarOp} {u v : Option (D F)} {w : F} (g : F → F → F)
    (hg : ∀ s t : Scal F, ∀ r, applyOp f [s, t] = some (.f r) → ∃ x y, s = .f x ∧ t = .f y ∧ r = g x y)
    (h : opOf f [u, v] = some (.sc (.f w))) : ∃ x y, u = some (.sc (.f x)) ∧ v = some (.sc (.f y)) ∧ w = g x y := by
  rcases u with _ | (s | _ | _) <;> rcases v with _ | (t | _ | _) <;> simp [opOf, mapOpt, Val.asScal] at h
  obtain ⟨r, h, hr⟩ := Option.bind_eq_some_iff.1 h
  cases hr
  obtain ⟨x, y, rfl, rfl, hw⟩ := hg s t w h
  exact ⟨x, y, rfl, rfl, hw⟩

/-- The sum of products that `Dot.lift` finds has the value of the expression. -/
theorem run_lift [RingFloat F] [AssocFloat F] (I : Ext F) : ∀ (k : Nat) (e : Expr F) (S : Finset Sym) (d : Dot F), lift k e = some d →
    Scoped e → lexical e S = true → AccFree e → ∀ (env : Env (D F)) (w : F), run I e env = some (.sc (.f w)) →
      w = total I d env := by
  intro k
  induction k with
  | zero => intro e S d h; simp [lift] at h
  | succ k ih =>
    rintro ⟨hd, ts⟩ S d h hs hl hf env w hw
    have pure : ∀ e : Expr F, run I e env = some (.sc (.f w)) → w = total I (.pure e) env := by
      intro e he
      simp [total, Dot.pure, nested, prodOf, he, floatOf]
    simp only [lift] at h
    split at h
    · rename_i c a n z b
      split at h
      · rename_i elem hm
        obtain ⟨d', h1, h2⟩ := Option.bind_eq_some_iff.1 h
        obtain ⟨hb, rfl⟩ := matchSummation_some hm
        have hb' := hb
        obtain ⟨f, ts, rfl, ht⟩ := body_child hb'
        obtain ⟨l1, l2, l3, l4, l5, l6⟩ := lexical_fold (c := c) (a := a) hl
        have hc := hs.children
        have he : Scoped elem := (hc (node (.op f) ts) (by simp)).children _ ht
        have ha := hf c a n _ _ elem _ (.refl _) hb
        rw [total_sum I h2]
        have hw' := hw
        change run I (fold c a n _ _) env = _ at hw'
        rw [run_fold_red I hb he ha l5.symm] at hw'
        unfold foldOf at hw'
        obtain ⟨m, hm', hw'⟩ := Option.bind_eq_some_iff.1 hw'
        rw [run_node] at hw'
        simp only [runDen, Option.bind_some, redOp] at hw'
        obtain ⟨h3, h4⟩ := loop_sum (fun j : Nat => run I elem (env.set (.var c) (some (.int (j : Int))))) _ _ _ hw'
        have hcount : countOf (run I n env) = m.toNat := by
          obtain ⟨v, hv, hm'⟩ := Option.bind_eq_some_iff.1 hm'
          rw [hv]
          rcases v with (_ | _ | _) | _ | _ <;> simp [Val.asInt] at hm'
          simp [countOf, hm']
        rw [h4, hcount, RingFloat.zero, zero_add, sum_range_list]
        refine Finset.sum_congr rfl fun j hj => ?_
        obtain ⟨x, hx⟩ := h3 j (by simpa using hj)
        rw [hx]
        exact ih elem _ d' h1 he (lexical_operand l6 _ ht) ((hf.child (t := node (.op f) ts) (by simp)).child ht) _ _ hx
      · cases h; exact pure _ hw
    · rename_i x y
      obtain ⟨d1, h1, h⟩ := Option.bind_eq_some_iff.1 h
      obtain ⟨d2, h2, h⟩ := Option.bind_eq_some_iff.1 h
      rw [run_node] at hw
      obtain ⟨u, v, hu, hv, rfl⟩ := op_float (f := .add) (· + ·) (by
        rintro (_ | _ | _) (_ | _ | _) r h <;> simp [applyOp] at h
        exact ⟨_, _, rfl, rfl, by rw [← h, RingFloat.add]⟩) hw
      rw [total_add I h]
      show u + v = _
      rw [← ih x S d1 h1 (hs.children _ (by simp)) (lexical_operand hl _ (by simp)) (hf.child (by simp)) _ _ hu,
        ← ih y S d2 h2 (hs.children _ (by simp)) (lexical_operand hl _ (by simp)) (hf.child (by simp)) _ _ hv]
    · rename_i x
      obtain ⟨d1, h1, rfl⟩ := Option.map_eq_some_iff.1 h
      have hd1 := lift_inv k x S d1 h1 (hs.children _ (by simp)) (lexical_operand hl _ (by simp)) (hf.child (by simp))
      rw [total_neg I hd1.nonempty]
      rw [run_node] at hw
      have : ∃ u, run I x env = some (.sc (.f u)) ∧ w = -u := by
        simp only [List.map_cons, List.map_nil, runDen] at hw
        generalize run I x env = v at hw
        rcases v with _ | ((_ | _ | _) | _ | _) <;> simp [opOf, mapOpt, Val.asScal, applyOp] at hw
        exact ⟨_, rfl, by rw [← hw, RingFloat.neg]⟩
      obtain ⟨u, hu, rfl⟩ := this
      rw [← ih x S d1 h1 (hs.children _ (by simp)) (lexical_operand hl _ (by simp)) (hf.child (by simp)) _ _ hu]
    · rename_i x y
      obtain ⟨d1, h1, h⟩ := Option.bind_eq_some_iff.1 h
      obtain ⟨d2, h2, h⟩ := Option.bind_eq_some_iff.1 h
      have hd2 := lift_inv k y S d2 h2 (hs.children _ (by simp)) (lexical_operand hl _ (by simp)) (hf.child (by simp))
      rw [run_node] at hw
      obtain ⟨u, v, hu, hv, rfl⟩ := op_float (f := .subtract) (· - ·) (by
        rintro (_ | _ | _) (_ | _ | _) r h <;> simp [applyOp] at h
        exact ⟨_, _, rfl, rfl, by rw [← h, RingFloat.sub]⟩) hw
      rw [total_add I h, total_neg I hd2.nonempty]
      show u - v = _
      rw [← ih x S d1 h1 (hs.children _ (by simp)) (lexical_operand hl _ (by simp)) (hf.child (by simp)) _ _ hu,
        ← ih y S d2 h2 (hs.children _ (by simp)) (lexical_operand hl _ (by simp)) (hf.child (by simp)) _ _ hv, sub_eq_add_neg]
    · rename_i x y
      obtain ⟨d1, h1, h⟩ := Option.bind_eq_some_iff.1 h
      obtain ⟨d2, h2, h⟩ := Option.bind_eq_some_iff.1 h
      split at h
      · rename_i hdis
        cases h
        have l1 := lexical_operand hl x (by simp)
        have l2 := lexical_operand hl y (by simp)
        have hd1 := lift_inv k x S d1 h1 (hs.children _ (by simp)) l1 (hf.child (by simp))
        have hd2 := lift_inv k y S d2 h2 (hs.children _ (by simp)) l2 (hf.child (by simp))
        rw [run_node] at hw
        obtain ⟨u, v, hu, hv, rfl⟩ := op_float (f := .multiply) (· * ·) (by
          rintro (_ | _ | _) (_ | _ | _) r h <;> simp [applyOp] at h
          exact ⟨_, _, rfl, rfl, by rw [← h, RingFloat.mul]⟩) hw
        rw [total_mul I hd1 hd2 (lexical_fv _ _ l1) (lexical_fv _ _ l2) hdis]
        show u * v = _
        rw [← ih x S d1 h1 (hs.children _ (by simp)) l1 (hf.child (by simp)) _ _ hu,
          ← ih y S d2 h2 (hs.children _ (by simp)) l2 (hf.child (by simp)) _ _ hv]
      · cases h; exact pure _ hw
    · cases h; exact pure _ hw

end
end Verif.Codegen
