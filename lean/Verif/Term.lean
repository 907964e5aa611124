import Mathlib.Data.Finset.Basic
import Mathlib.Data.Finset.Union
import Mathlib.Data.Finset.Insert
import Mathlib.Data.Finset.SDiff
import Mathlib.Tactic.Common

/-!
Model of `ein/symbols.py` and `ein/term.py`: symbols, and the abstract term interface shared by the
phi calculus and the yarr array code.

A Python term class is a dataclass whose fields are sub-terms and other data.  Here a term is a
*head* (the class together with all fields that are not terms) applied to the list `subterms`.
`Term.map f` rebuilds the node from the mapped sub-terms, which is what every `map` method does.
-/

namespace Verif

/-- `ein/symbols.py:4-21`.  Symbols are compared by object identity; the number is the identity. -/
inductive Sym where
  /-- `class Variable` (`ein/symbols.py:14`) -/
  | var (n : Nat)
  /-- `class Index` (`ein/symbols.py:19`) -/
  | idx (n : Nat)
deriving DecidableEq, Repr

/-- Is the symbol an `Index`? (`isinstance(index, Index)`, `ein/term.py:87`) -/
def Sym.isIdx : Sym → Bool
  | .idx _ => true
  | .var _ => false

/-- `ein/term.py:16`: a term with its head and `subterms`. -/
inductive Term (H : Type) where
  | node (h : H) (ts : List (Term H))

namespace Term
variable {H A : Type}

/-- the non-term fields together with the class -/
def head : Term H → H
  | node h _ => h

/-- `Term.subterms` (`ein/term.py:40-43`) -/
def subs : Term H → List (Term H)
  | node _ ts => ts

/-- `Term.map` (`ein/term.py:45-47`) -/
def map (f : Term H → Term H) : Term H → Term H
  | node h ts => node h (ts.map f)

mutual
/-- Bottom-up recursion over a term. -/
def cata (alg : H → List A → A) : Term H → A
  | node h ts => alg h (cataList alg ts)
/-- Bottom-up recursion over a list of terms. -/
def cataList (alg : H → List A → A) : List (Term H) → List A
  | [] => []
  | t :: ts => cata alg t :: cataList alg ts
end

theorem cataList_eq (alg : H → List A → A) (ts : List (Term H)) :
    cataList alg ts = ts.map (cata alg) := by
  induction ts with
  | nil => rfl
  | cons t ts ih => simp [cataList, ih]

theorem cata_node (alg : H → List A → A) (h : H) (ts : List (Term H)) :
    cata alg (node h ts) = alg h (ts.map (cata alg)) := by
  rw [cata, cataList_eq]

mutual
/-- Bottom-up recursion that also sees the sub-terms. -/
def para (alg : H → List (Term H × A) → A) : Term H → A
  | node h ts => alg h (paraList alg ts)
/-- `para` over a list of terms. -/
def paraList (alg : H → List (Term H × A) → A) : List (Term H) → List (Term H × A)
  | [] => []
  | t :: ts => (t, para alg t) :: paraList alg ts
end

theorem paraList_eq (alg : H → List (Term H × A) → A) (ts : List (Term H)) :
    paraList alg ts = ts.map (fun t => (t, para alg t)) := by
  induction ts with
  | nil => rfl
  | cons t ts ih => simp [paraList, ih]

theorem para_node (alg : H → List (Term H × A) → A) (h : H) (ts : List (Term H)) :
    para alg (node h ts) = alg h (ts.map (fun t => (t, para alg t))) := by
  rw [para, paraList_eq]

/-- Induction over terms. -/
theorem ind {P : Term H → Prop} (step : ∀ h ts, (∀ t ∈ ts, P t) → P (node h ts)) : ∀ t, P t
  | node h ts => step h ts (fun t _ => ind step t)

mutual
/-- Boolean structural equality of terms. -/
def beq [DecidableEq H] : Term H → Term H → Bool
  | node h ts, node k us => decide (h = k) && beqList ts us
/-- Boolean structural equality of lists of terms. -/
def beqList [DecidableEq H] : List (Term H) → List (Term H) → Bool
  | [], [] => true
  | t :: ts, u :: us => beq t u && beqList ts us
  | _, _ => false
end

mutual
theorem eq_of_beq' [DecidableEq H] : ∀ (t u : Term H), beq t u = true → t = u
  | node h ts, node k us, e => by
    simp only [beq, Bool.and_eq_true, decide_eq_true_eq] at e
    rw [e.1, eq_of_beqList ts us e.2]
theorem eq_of_beqList [DecidableEq H] : ∀ (ts us : List (Term H)), beqList ts us = true → ts = us
  | [], [], _ => rfl
  | t :: ts, u :: us, e => by
    simp only [beqList, Bool.and_eq_true] at e
    rw [eq_of_beq' t u e.1, eq_of_beqList ts us e.2]
  | [], _ :: _, e => by simp [beqList] at e
  | _ :: _, [], e => by simp [beqList] at e
end

mutual
theorem beq_self [DecidableEq H] : ∀ (t : Term H), beq t t = true
  | node h ts => by simp [beq, beqList_self ts]
theorem beqList_self [DecidableEq H] : ∀ (ts : List (Term H)), beqList ts ts = true
  | [] => rfl
  | t :: ts => by simp [beqList, beq_self t, beqList_self ts]
end

instance [DecidableEq H] : DecidableEq (Term H) := fun t u =>
  if e : beq t u = true then isTrue (eq_of_beq' t u e)
  else isFalse (fun h => e (h ▸ beq_self t))

/-- Number of nodes. -/
def size : Term H → Nat := cata (fun _ ns => 1 + ns.sum)

theorem size_node (h : H) (ts : List (Term H)) :
    size (node h ts) = 1 + (ts.map size).sum := cata_node _ _ _

theorem size_lt_of_mem {h : H} {ts : List (Term H)} {t : Term H} (ht : t ∈ ts) :
    size t < size (node h ts) := by
  rw [size_node]
  have : size t ≤ (ts.map size).sum := by
    induction ts with
    | nil => cases ht
    | cons a l ih =>
      simp only [List.map_cons, List.sum_cons]
      rcases List.mem_cons.1 ht with rfl | ht
      · omega
      · have := ih ht; omega
  omega

/-- `u` occurs in `t` (reflexive sub-term relation). -/
inductive Occurs : Term H → Term H → Prop
  | refl (t) : Occurs t t
  | child {u t : Term H} {h : H} {ts : List (Term H)} :
      t ∈ ts → Occurs u t → Occurs u (node h ts)

theorem Occurs.size_le {u t : Term H} (h : Occurs u t) : size u ≤ size t := by
  induction h with
  | refl => exact le_refl _
  | child ht _ ih => exact le_of_lt (lt_of_le_of_lt ih (size_lt_of_mem ht))

theorem Occurs.trans {u t s : Term H} (h1 : Occurs u t) (h2 : Occurs t s) : Occurs u s := by
  induction h2 with
  | refl => exact h1
  | child ht _ ih => exact .child ht ih

theorem Occurs.antisymm {u t : Term H} (h1 : Occurs u t) (h2 : Occurs t u) : u = t := by
  cases h1 with
  | refl => rfl
  | child ht h =>
    have a := h.size_le
    have b := h2.size_le
    have c := size_lt_of_mem ht (h := by assumption)
    omega

end Term

/-- The part of the `Term` interface (`ein/term.py:40-78`) a term language has to provide, as
functions of the head. -/
class Lang (H : Type) where
  /-- `captured_symbols` (`ein/term.py:75-78`) -/
  captured : H → Finset Sym
  /-- `unwrap_symbol` (`ein/term.py:61-63`) -/
  symbol : H → Option Sym
  /-- `unwrap_let` (`ein/term.py:57-59`): the bound variable, for a `Let` node; its sub-terms are
  `[bind, body]`. -/
  letVar : H → Option Nat
  /-- `is_atom` (`ein/term.py:65-68`) -/
  isAtom : H → Bool
  /-- `is_loop` (`ein/term.py:70-73`) -/
  isLoop : H → Bool
  /-- the head of `Let(var, _, _)` used by `wrap_let` (`ein/term.py:49-51`) -/
  letHead : Nat → H
  /-- the head of the variable reference built by `wrap_var` (`ein/term.py:53-55`); it may record
  the type of the term it stands for -/
  varHead : Term H → Nat → H
  /-- Is the `k`-th sub-term outside the scope of the symbols captured by the node? The evaluators
  evaluate it before binding them (`naive.py:17-48`, `array_backend.py:74-155`). -/
  outside : H → Nat → Bool
  letVar_letHead : ∀ v, letVar (letHead v) = some v
  letVar_inj : ∀ h v, letVar h = some v → h = letHead v
  captured_let : ∀ v, captured (letHead v) = {Sym.var v}
  symbol_let : ∀ v, symbol (letHead v) = none
  symbol_var : ∀ t v, symbol (varHead t v) = some (.var v)
  captured_symbol : ∀ h s, symbol h = some s → captured h = ∅
  isAtom_var : ∀ t v, isAtom (varHead t v) = true
  outside_let : ∀ v k, outside (letHead v) k = decide (k = 0)

namespace Term
variable {H : Type} [Lang H]

/-- `wrap_let` (`ein/term.py:49-51`; `phi.py:68-69`, `yarr.py:75-76`). -/
def wrapLet (body : Term H) (v : Nat) (bind : Term H) : Term H :=
  node (Lang.letHead v) [bind, body]

/-- `wrap_var` (`ein/term.py:53-55`; `phi.py:71-72`, `yarr.py:72-73`). -/
def wrapVar (t : Term H) (v : Nat) : Term H := node (Lang.varHead t v) []

/-- `_maybe_set` (`ein/term.py:11-12`) -/
def maybeSet : Option Sym → Finset Sym
  | some s => {s}
  | none => ∅

/-- `free_symbols` (`ein/term.py:80-83`): captured symbols are removed from *all* sub-terms. -/
def fv : Term H → Finset Sym :=
  cata (fun h fvs => (maybeSet (Lang.symbol h) ∪ fvs.foldr (· ∪ ·) ∅) \ Lang.captured h)

theorem mem_foldr_union {α : Type} [DecidableEq α] {s : α} {l : List (Finset α)} :
    s ∈ l.foldr (· ∪ ·) ∅ ↔ ∃ f ∈ l, s ∈ f := by
  induction l with
  | nil => simp
  | cons a l ih => simp [ih]

theorem mem_fv {s : Sym} {h : H} {ts : List (Term H)} :
    s ∈ fv (node h ts) ↔
      (Lang.symbol h = some s ∨ ∃ t ∈ ts, s ∈ fv t) ∧ s ∉ Lang.captured h := by
  unfold fv
  rw [cata_node, Finset.mem_sdiff, Finset.mem_union, mem_foldr_union]
  have : s ∈ maybeSet (Lang.symbol h) ↔ Lang.symbol h = some s := by
    cases hs : Lang.symbol h with
    | none => simp [maybeSet]
    | some x => simp [maybeSet, eq_comm]
  rw [this]
  simp

/-- `free_indices` (`ein/term.py:85-87`) -/
def freeIndices (t : Term H) : Finset Sym := (fv t).filter (fun s => s.isIdx)

/-- All symbols captured anywhere in the term. -/
def binders : Term H → Finset Sym :=
  cata (fun h bs => Lang.captured h ∪ bs.foldr (· ∪ ·) ∅)

theorem mem_binders {s : Sym} {h : H} {ts : List (Term H)} :
    s ∈ binders (node h ts) ↔ s ∈ Lang.captured h ∨ ∃ t ∈ ts, s ∈ binders t := by
  unfold binders
  rw [cata_node, Finset.mem_union, mem_foldr_union]
  simp

/-- No binder on any path rebinds a symbol bound further up, and a `let` does not refer to its own
variable in its definition. -/
inductive NoShadow : Term H → Prop
  | node {h : H} {ts : List (Term H)} :
      (∀ t ∈ ts, Disjoint (Lang.captured h) (binders t)) →
      (∀ v bind body, Lang.letVar h = some v → ts = [bind, body] → Sym.var v ∉ fv bind) →
      (∀ t ∈ ts, NoShadow t) →
      NoShadow (node h ts)

theorem NoShadow.disjoint {h : H} {ts : List (Term H)} (p : NoShadow (Term.node h ts)) :
    ∀ t ∈ ts, Disjoint (Lang.captured h) (binders t) := by
  cases p; assumption

theorem NoShadow.letOk {v : Nat} {bind body : Term H}
    (p : NoShadow (Term.node (Lang.letHead v) [bind, body])) : Sym.var v ∉ fv bind := by
  cases p with
  | node _ h _ => exact h v bind body (Lang.letVar_letHead v) rfl

theorem NoShadow.children {h : H} {ts : List (Term H)} (p : NoShadow (Term.node h ts)) :
    ∀ t ∈ ts, NoShadow t := by
  cases p; assumption

theorem NoShadow.occurs {u t : Term H} (ho : Occurs u t) (p : NoShadow t) : NoShadow u := by
  induction ho with
  | refl => exact p
  | child ht _ ih => exact ih (p.children _ ht)

theorem binders_occurs {u t : Term H} (ho : Occurs u t) : binders u ⊆ binders t := by
  induction ho with
  | refl => exact Finset.Subset.refl _
  | child ht _ ih => intro s hs; exact mem_binders.2 (Or.inr ⟨_, ht, ih hs⟩)

theorem captured_subset_binders {h : H} {ts : List (Term H)} :
    Lang.captured h ⊆ binders (node h ts) := fun _ hs => mem_binders.2 (Or.inl hs)

theorem binders_child_subset {h : H} {ts : List (Term H)} {t : Term H} (ht : t ∈ ts) :
    binders t ⊆ binders (node h ts) := fun _ hs => mem_binders.2 (Or.inr ⟨t, ht, hs⟩)

/-- The scope condition passes to children: binders of a child avoid the extended scope. -/
theorem NoShadow.child_scope {h : H} {ts : List (Term H)} (p : NoShadow (Term.node h ts))
    {G : Finset Sym} (hG : Disjoint (binders (Term.node h ts)) G) {t : Term H} (ht : t ∈ ts) :
    Disjoint (binders t) (G ∪ Lang.captured h) := by
  rw [Finset.disjoint_union_right]
  exact ⟨Finset.disjoint_of_subset_left (binders_child_subset ht) hG, (p.disjoint t ht).symm⟩

theorem fv_child_subset {h : H} {ts : List (Term H)} {t : Term H} (ht : t ∈ ts)
    {G : Finset Sym} (hG : fv (node h ts) ⊆ G) : fv t ⊆ G ∪ Lang.captured h := by
  intro s hs
  by_cases hc : s ∈ Lang.captured h
  · exact Finset.mem_union_right _ hc
  · exact Finset.mem_union_left _ (hG (mem_fv.2 ⟨Or.inr ⟨t, ht, hs⟩, hc⟩))

/-- No sub-term outside the scope of a binder mentions the symbol bound there. The frontend draws a
fresh symbol for each binder (e.g. `ein/frontend/comprehension.py:144-161`), so this always holds for
source programs. -/
inductive Scoped : Term H → Prop
  | node {h : H} {ts : List (Term H)} :
      (∀ k t, ts[k]? = some t → Lang.outside h k = true → Disjoint (Lang.captured h) (fv t)) →
      (∀ t ∈ ts, Scoped t) → Scoped (node h ts)

theorem Scoped.children {h : H} {ts : List (Term H)} (p : Scoped (Term.node h ts)) :
    ∀ t ∈ ts, Scoped t := by
  cases p; assumption

theorem Scoped.out {h : H} {ts : List (Term H)} (p : Scoped (Term.node h ts)) :
    ∀ k t, ts[k]? = some t → Lang.outside h k = true → Disjoint (Lang.captured h) (fv t) := by
  cases p; assumption

theorem Scoped.occurs {u t : Term H} (ho : Occurs u t) (p : Scoped t) : Scoped u := by
  induction ho with
  | refl => exact p
  | child ht _ ih => exact ih (p.children _ ht)

theorem scoped_of_occurs {t : Term H}
    (h : ∀ (hd : H) ts k u, Occurs (node hd ts) t → ts[k]? = some u → Lang.outside hd k = true →
      Disjoint (Lang.captured hd) (fv u)) : Scoped t := by
  induction t using ind with
  | step hd ts ih =>
    exact .node (fun k u => h hd ts k u (.refl _))
      (fun t ht => ih t ht (fun hd' ts' k u ho => h hd' ts' k u (.child ht ho)))

end Term

/-! ### Compositional semantics of a term language -/

/-- Environments; `none` is an unbound variable or a failed evaluation. -/
abbrev Env (V : Type) := Sym → Option V

/-- `env` with the symbols in `c` taken from `ext`. -/
def Env.override {V : Type} (env : Env V) (c : Finset Sym) (ext : Env V) : Env V :=
  fun s => if s ∈ c then ext s else env s

/-- `env | {s: v}` -/
def Env.set {V : Type} (env : Env V) (s : Sym) (v : Option V) : Env V :=
  fun s' => if s' = s then v else env s'

/-- `env` and `env'` agree on the symbols in `G`. -/
def Env.AgreeOn {V : Type} (G : Finset Sym) (env env' : Env V) : Prop :=
  ∀ s ∈ G, env s = env' s

/-- A compositional evaluator for a term language: the meaning of a node is a function of the
meanings of its sub-terms, which it may use only in environments that differ from the current one
at captured symbols. As `free_symbols` (`ein/term.py:80-83`) removes captured symbols from *all*
sub-terms, a sub-term outside the scope of the binder (the definition of a `let`, the size of a loop)
is evaluated with the captured symbols unbound; this differs from using the current environment only
for terms that refer there to a symbol of the same name from outside. `let` is call-by-name here (an
unused failing binding is harmless); strict evaluators are related to this one separately.
`Verif.Phi.sem` is an instance. -/
structure Sem (H V : Type) [Lang H] where
  den : H → List (Env V → Option V) → Env V → Option V
  den_symbol : ∀ h fs s env, Lang.symbol h = some s → den h fs env = env s
  den_let : ∀ v f g env, den (Lang.letHead v) [f, g] env =
    g (env.set (.var v) (f (env.set (.var v) none)))
  den_local : ∀ h (fs gs : List (Env V → Option V)) env env',
    (∀ s, Lang.symbol h = some s → env s = env' s) →
    List.Forall₂ (fun f g => ∀ ext : Env V,
      f (env.override (Lang.captured h) ext) = g (env'.override (Lang.captured h) ext)) fs gs →
    den h fs env = den h gs env'

namespace Sem
open Term
variable {H V : Type} [Lang H] (S : Sem H V)

/-- Evaluation of a term. -/
def eval (t : Term H) : Env V → Option V := cata S.den t

theorem eval_node (h : H) (ts : List (Term H)) :
    S.eval (node h ts) = S.den h (ts.map S.eval) := cata_node _ _ _

/-- Rebuilding lemma: nodes with the same head whose children agree in all extended environments. -/
theorem eval_congr {h : H} {ts us : List (Term H)} {env env' : Env V}
    (hs : ∀ s, Lang.symbol h = some s → env s = env' s)
    (hc : List.Forall₂ (fun t u => ∀ ext : Env V,
      S.eval t (env.override (Lang.captured h) ext) =
        S.eval u (env'.override (Lang.captured h) ext)) ts us) :
    S.eval (node h ts) env = S.eval (node h us) env' := by
  rw [eval_node, eval_node]
  refine S.den_local h _ _ env env' hs ?_
  induction hc with
  | nil => exact .nil
  | cons h1 _ ih => exact .cons h1 ih

/-- C28 core: the value depends only on the free symbols. -/
theorem eval_agree (t : Term H) : ∀ {env env' : Env V}, Env.AgreeOn (fv t) env env' →
    S.eval t env = S.eval t env' := by
  induction t using ind with
  | step h ts ih =>
    intro env env' ha
    refine S.eval_congr ?_ ?_
    · intro s hs
      refine ha s (mem_fv.2 ⟨Or.inl hs, ?_⟩)
      rw [Lang.captured_symbol h s hs]; simp
    · rw [List.forall₂_same]
      intro t ht ext
      refine ih t ht ?_
      intro s hsv
      unfold Env.override
      split_ifs with hc
      · rfl
      · exact ha s (mem_fv.2 ⟨Or.inr ⟨t, ht, hsv⟩, hc⟩)

theorem eval_wrapLet' (body bind : Term H) (v : Nat) (env : Env V) :
    S.eval (wrapLet body v bind) env =
      S.eval body (env.set (.var v) (S.eval bind (env.set (.var v) none))) := by
  unfold wrapLet
  rw [eval_node]
  exact S.den_let v _ _ env

theorem eval_set_of_notMem {t : Term H} {s : Sym} (hs : s ∉ fv t) (env : Env V) (x : Option V) :
    S.eval t (env.set s x) = S.eval t env := by
  refine S.eval_agree t (fun s' hs' => ?_)
  unfold Env.set
  rw [if_neg]
  rintro rfl
  exact hs hs'

theorem eval_wrapLet (body bind : Term H) (v : Nat) (hv : Sym.var v ∉ fv bind) (env : Env V) :
    S.eval (wrapLet body v bind) env = S.eval body (env.set (.var v) (S.eval bind env)) := by
  rw [eval_wrapLet', eval_set_of_notMem S hv]

theorem eval_symbol {h : H} {s : Sym} (hs : Lang.symbol h = some s) (ts : List (Term H))
    (env : Env V) : S.eval (node h ts) env = env s := by
  rw [eval_node]
  exact S.den_symbol h _ s env hs

theorem eval_wrapVar (t : Term H) (v : Nat) (env : Env V) :
    S.eval (wrapVar t v) env = env (.var v) :=
  S.eval_symbol (Lang.symbol_var t v) [] env

end Sem
end Verif
