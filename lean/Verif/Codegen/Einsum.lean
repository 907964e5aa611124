import Verif.Codegen.Dot
import Verif.Codegen.Letters
import Verif.Codegen.Compiled
import Verif.Backend.Reduce
import Mathlib.Algebra.BigOperators.Group.Finset.Sigma

/-!
Nested sums of products that are compiled to `einsum` (`ein/codegen/phi_to_yarr.py:80-153`).
-/

set_option linter.unusedSectionVars false

namespace Verif.Codegen
open Verif.Phi Verif.Term Verif.Yarr Verif.Arr Verif.Midend
variable {F : Type}

/-- The factors with the new indices in place of the counters (`phi_to_yarr.py:87-90`, `107-110`). -/
def withIndices [DecidableEq F] (new : Nat → Nat) (d : Dot F) (e : Expr F) : Expr F :=
  substitute (d.contract.map fun q => (Sym.var q.1, at_ (new q.1))) e

/-- The einsum branch of a fold (`phi_to_yarr.py:80-153`). The outer `none` means that the fold has not the
right form. `new` gives the new index of a counter, `go` is the compiler. Left out: that the size classes
learn about the new indices (`111-116`), their answers are given; that products before the first one that is
refused are compiled, too. -/
def einsumFold [DecidableEq F] [FloatOps F] (equiv : Expr F → Expr F → Bool)
    (go : (Nat → Option (YExpr F)) → Expr F → Option (Axial F)) (sizes : Nat → Option (YExpr F)) (new : Nat → Nat)
    (depth : Nat) (e : Expr F) : Option (Option (Axial F)) :=
  match lift depth e with
  | none => some none
  | some d =>
    if d.contract ≠ [] ∧ ∃ p ∈ d.products, 1 < p.length then
      match mapOpt (fun q : Nat × Expr F => ((go sizes q.2).bind Axial.normal).map fun n => (new q.1, n)) d.contract with
      | none => some none
      | some ns =>
        if ∀ p ∈ d.products, ∀ q ∈ d.contract, ∀ f ∈ p, considerate equiv q.1 q.2 f = true then
          some ((mapOpt (fun p : List (Expr F) => mapOpt (fun f => go (withSums sizes ns) (withIndices new d f)) p)
            d.products).bind (einsumCode (d.counters.map new)))
        else none
    else none

/-! ### Sums over indices -/

section
variable [CommRing F]

/-- The sum over all values of the indices. -/
def sumOver (σ : Nat → Nat) : List Nat → ((Nat → Nat) → F) → (Nat → Nat) → F
  | [], g, ρ => g ρ
  | i :: l, g, ρ => ∑ j ∈ Finset.range (σ i), sumOver σ l g (upd ρ i j)

theorem upd_comm {β : Type} (f : Nat → β) {i j : Nat} (h : i ≠ j) (x y : β) :
    upd (upd f i x) j y = upd (upd f j y) i x := by
  funext k
  unfold upd
  split
  · rename_i h1
    subst h1
    rw [if_neg (Ne.symm h)]
  · rfl

theorem sumOver_perm (σ : Nat → Nat) (g : (Nat → Nat) → F) {l l' : List Nat} (h : l.Perm l') :
    l.Nodup → ∀ ρ, sumOver σ l g ρ = sumOver σ l' g ρ := by
  induction h with
  | nil => intro _ ρ; rfl
  | cons x _ ih =>
    intro hn ρ
    exact Finset.sum_congr rfl fun j _ => ih (List.nodup_cons.1 hn).2 _
  | swap x y l =>
    intro hn ρ
    have hxy : y ≠ x := fun e => (List.nodup_cons.1 hn).1 (by simp [e])
    show (∑ j ∈ Finset.range (σ y), ∑ k ∈ Finset.range (σ x), sumOver σ l g (upd (upd ρ y j) x k)) =
      ∑ k ∈ Finset.range (σ x), ∑ j ∈ Finset.range (σ y), sumOver σ l g (upd (upd ρ x k) y j)
    rw [Finset.sum_comm]
    exact Finset.sum_congr rfl fun j _ => Finset.sum_congr rfl fun k _ => by rw [upd_comm ρ hxy]
  | trans h1 _ ih1 ih2 =>
    intro hn ρ
    exact (ih1 hn ρ).trans (ih2 (h1.nodup_iff.1 hn) ρ)

theorem sumOver_congr (σ : Nat → Nat) {g g' : (Nat → Nat) → F} {l : List Nat} : ∀ ρ : Nat → Nat,
    (∀ ρ', (∀ i, i ∉ l → ρ' i = ρ i) → (∀ i ∈ l, ρ' i < σ i) → g ρ' = g' ρ') → l.Nodup →
      sumOver σ l g ρ = sumOver σ l g' ρ := by
  induction l with
  | nil => exact fun ρ h _ => h ρ (fun _ _ => rfl) (by simp)
  | cons i l ih =>
    intro ρ h hn
    obtain ⟨hi, hn⟩ := List.nodup_cons.1 hn
    refine Finset.sum_congr rfl fun j hj => ih _ (fun ρ' h1 h2 => h ρ' (fun k hk => ?_) fun k hk => ?_) hn
    · simp only [List.mem_cons, not_or] at hk
      rw [h1 k hk.2]
      simp [upd, hk.1]
    · rcases List.mem_cons.1 hk with rfl | hk
      · rw [h1 k hi]
        simpa [upd] using hj
      · exact h2 k hk

/-- The assignment changed on the indices `con`. -/
def assign : List Nat → List Nat → (Nat → Nat) → Nat → Nat
  | i :: con, k :: kx, ρ => assign con kx (upd ρ i k)
  | _, _, ρ => ρ

theorem assign_out {con kx : List Nat} {x : Nat} (h : x ∉ con) : ∀ ρ, assign con kx ρ x = ρ x := by
  induction con generalizing kx with
  | nil => intro ρ; cases kx <;> rfl
  | cons i con ih =>
    intro ρ
    simp only [List.mem_cons, not_or] at h
    cases kx with
    | nil => rfl
    | cons k kx =>
      show assign con kx (upd ρ i k) x = ρ x
      rw [ih h.2]
      simp [upd, h.1]

theorem assign_in {con kx : List Nat} {x : Nat} (h : x ∈ con) (hn : con.Nodup) (hl : con.length = kx.length) :
    ∀ ρ, assign con kx ρ x = NArr.labelled (con.zip kx) x := by
  induction con generalizing kx with
  | nil => cases h
  | cons i con ih =>
    intro ρ
    cases kx with
    | nil => cases hl
    | cons k kx =>
      obtain ⟨hi, hn⟩ := List.nodup_cons.1 hn
      show assign con kx (upd ρ i k) x = NArr.labelled ((i, k) :: con.zip kx) x
      unfold NArr.labelled
      rw [List.find?_cons]
      by_cases e : i = x
      · subst e
        rw [assign_out hi]
        simp [upd]
      · have : x ∈ con := by
          rcases List.mem_cons.1 h with h | h
          · exact absurd h.symm e
          · exact h
        simp only [e, decide_false]
        exact ih this hn (by simpa using hl) _

theorem assign_lt {con kx : List Nat} {σ : Nat → Nat} (h : InRange (con.map σ) kx) (hn : con.Nodup) :
    ∀ ρ, ∀ x ∈ con, assign con kx ρ x < σ x := by
  induction con generalizing kx with
  | nil => simp
  | cons i con ih =>
    intro ρ x hx
    obtain ⟨hi, hn⟩ := List.nodup_cons.1 hn
    cases kx with
    | nil => simp [InRange] at h
    | cons k kx =>
      rw [List.map_cons, inRange_cons] at h
      show assign con kx (upd ρ i k) x < σ x
      rcases List.mem_cons.1 hx with rfl | hx
      · rw [assign_out hi]
        simpa [upd] using h.1
      · exact ih h.2 hn _ x hx

theorem sum_indices (σ : Nat → Nat) (g : (Nat → Nat) → F) (con : List Nat) : ∀ ρ,
    ((Arr.indices (con.map σ)).map fun kx => g (assign con kx ρ)).sum = sumOver σ con g ρ := by
  induction con with
  | nil => intro ρ; simp [Arr.indices, sumOver, assign]
  | cons i con ih =>
    intro ρ
    show (List.map _ ((List.range (σ i)).flatMap _)).sum = _
    rw [List.map_flatMap]
    simp only [List.map_map]
    have : ∀ l : List Nat, (l.flatMap fun j => (Arr.indices (con.map σ)).map
        ((fun kx => g (assign (i :: con) kx ρ)) ∘ fun x => j :: x)).sum =
          (l.map fun j => sumOver σ con g (upd ρ i j)).sum := by
      intro l
      induction l with
      | nil => rfl
      | cons j l ihl =>
        rw [List.flatMap_cons, List.sum_append, ihl, List.map_cons, List.sum_cons]
        congr 1
        exact ih (upd ρ i j)
    rw [this, sum_range_list]
    rfl

variable [FloatOps F] [RingFloat F]

theorem add_floats (x y : F) : applyOp .add [.f x, .f y] = some (.f (x + y)) := by rw [← RingFloat.add]; rfl

theorem mul_floats (x y : F) : applyOp .multiply [.f x, .f y] = some (.f (x * y)) := by rw [← RingFloat.mul]; rfl

theorem sumScal_floats (l : List F) : sumScal (l.map .f) = some (.f l.sum) := by
  have loop : ∀ (l : List F) (z : F), loopOpt (fun a b => applyOp .add [a, b]) (.f z) (l.map .f) =
      some (.f (z + l.sum)) := by
    intro l
    induction l with
    | nil => intro z; simp [loopOpt]
    | cons x l ih =>
      intro z
      rw [List.map_cons, loopOpt_cons]
      rw [add_floats, Option.bind_some, ih, List.sum_cons, add_assoc]
  cases l with
  | nil => simp [sumScal, RingFloat.zero]
  | cons x l => rw [List.map_cons]; simp only [sumScal, loop, List.sum_cons]

theorem prodScal_floats {l : List F} (h : l ≠ []) : prodScal (l.map .f) = some (.f l.prod) := by
  have loop : ∀ (l : List F) (z : F), loopOpt (fun a b => applyOp .multiply [a, b]) (.f z) (l.map .f) =
      some (.f (z * l.prod)) := by
    intro l
    induction l with
    | nil => intro z; simp [loopOpt]
    | cons x l ih =>
      intro z
      rw [List.map_cons, loopOpt_cons]
      rw [mul_floats, Option.bind_some, ih, List.prod_cons, mul_assoc]
  cases l with
  | nil => exact absurd rfl h
  | cons x l => rw [List.map_cons]; simp only [prodScal, loop, List.prod_cons]

end

/-! ### Labels -/

theorem zip_map_self (l : List Nat) (g : Nat → Nat) : l.zip (l.map g) = l.map fun i => (i, g i) := by
  induction l with
  | nil => rfl
  | cons i l ih => simp [ih]

theorem labelled_map (l : List Nat) (g : Nat → Nat) {x : Nat} (h : x ∈ l) (m : List (Nat × Nat)) :
    NArr.labelled (l.map (fun i => (i, g i)) ++ m) x = g x := by
  induction l with
  | nil => cases h
  | cons i l ih =>
    unfold NArr.labelled
    rw [List.map_cons, List.cons_append, List.find?_cons]
    by_cases e : i = x
    · subst e; simp
    · have : x ∈ l := by
        rcases List.mem_cons.1 h with h | h
        · exact absurd h.symm e
        · exact h
      simp only [e, decide_false]
      exact ih this

theorem labelled_skip (l : List Nat) (g : Nat → Nat) {x : Nat} (h : x ∉ l) (m : List (Nat × Nat)) :
    NArr.labelled (l.map (fun i => (i, g i)) ++ m) x = NArr.labelled m x := by
  induction l with
  | nil => rfl
  | cons i l ih =>
    simp only [List.mem_cons, not_or] at h
    unfold NArr.labelled
    rw [List.map_cons, List.cons_append, List.find?_cons]
    simp only [Ne.symm h.1, decide_false]
    exact ih h.2

/-! ### The code of a product -/

section
variable [CommRing F] [FloatOps F] [RingFloat F] {J : YExt F} {yenv : Env (YVal F)} {S : Nat → Prop} {σ : Nat → Nat}

/-- The operands of an `einsum`. -/
theorem float_operands (hσ : Positive S σ) {xs : List (Axial F)} {vs : List ((Nat → Nat) → Option (D F))}
    (h : List.Forall₂ (fun x v => Means J yenv S σ x v) xs vs)
    (hv : ∀ v ∈ vs, ∀ ρ, Valid S σ ρ → ∃ c : F, v ρ = some (.sc (.f c))) :
    ∃ as : List (A F), List.Forall₂ (fun e b => Yarr.eval J e yenv = some (.arr b)) (xs.map Axial.expr) as ∧
      (∀ e ∈ xs.map Axial.expr, RankOk J yenv e) ∧ as.map NArr.shape = xs.map (fun x => x.axes.map σ) ∧
      ∀ ρ, Valid S σ ρ → mapOpt (fun p : List Nat × A F => p.2.get? (p.1.map ρ)) ((xs.map Axial.axes).zip as) =
        some (vs.map fun v => .f (floatOf (v ρ))) := by
  induction h with
  | nil => exact ⟨[], .nil, by simp, rfl, fun _ _ => rfl⟩
  | @cons x v xs vs hx _ ih =>
    obtain ⟨as, h1, h2, h3, h4⟩ := ih fun v hv' => hv v (by simp [hv'])
    obtain ⟨a, ho, ha⟩ := hx.scal hσ fun ρ hρ => by
      obtain ⟨c, hc⟩ := hv v (by simp) ρ hρ
      exact ⟨_, hc⟩
    refine ⟨a :: as, .cons ho.value h1, ?_, ?_, fun ρ hρ => ?_⟩
    · intro e he
      rcases List.mem_cons.1 he with rfl | he
      · exact ho.rank
      · exact h2 e he
    · rw [List.map_cons, List.map_cons, h3, ho.shape, List.append_nil]
    · obtain ⟨c, hc⟩ := hv v (by simp) ρ hρ
      have := ha ρ hρ
      rw [hc] at this
      simp only [List.map_cons, List.zip_cons_cons, mapOpt, h4 ρ hρ, ← this, Val.asScal, Option.bind_some, hc, floatOf]

theorem dims_eq {xs : List (Axial F)} {as : List (A F)} (h : as.map NArr.shape = xs.map (fun x => x.axes.map σ)) :
    (((xs.map Axial.axes).zip (as.map NArr.shape)).map (fun p => p.1.zip p.2)).flatten =
      (xs.flatMap Axial.axes).map (fun i => (i, σ i)) := by
  rw [h]
  clear h
  induction xs with
  | nil => rfl
  | cons x xs ih =>
    simp only [List.map_cons, List.zip_cons_cons, List.flatten_cons, ih, List.flatMap_cons, List.map_append]
    congr 1
    induction x.axes with
    | nil => rfl
    | cons i l ih => simp [ih]

/-- The code of a product computes the sum, over the new indices that occur in it, of the product. -/
theorem means_product {sums own : List Nat} {xs : List (Axial F)} {vs : List ((Nat → Nat) → Option (D F))}
    {y : Axial F} (h : List.Forall₂ (fun x v => Means J yenv (fun i => S i ∨ i ∈ own) σ x v) xs vs) (hne : xs ≠ [])
    (hσ : Positive (fun i => S i ∨ i ∈ own) σ)
    (hv : ∀ v ∈ vs, ∀ ρ, Valid (fun i => S i ∨ i ∈ own) σ ρ → ∃ c : F, v ρ = some (.sc (.f c)))
    (hS : ∀ i ∈ sums, ¬ S i) (hn : own.Nodup) (hown : ∀ i ∈ own, i ∈ sums) (hax : ∀ i ∈ own, ∃ x ∈ xs, i ∈ x.axes)
    (hy : productCode sums xs = some y) :
    Means J yenv S σ y fun ρ => some (.sc (.f (sumOver σ own (fun ρ => (vs.map fun v => floatOf (v ρ)).prod) ρ))) := by
  unfold productCode at hy
  obtain ⟨⟨sb, rs⟩, hletters, hy⟩ := Option.bind_eq_some_iff.1 hy
  obtain ⟨rfl, hi, -⟩ := mk?_eq_some hy
  obtain ⟨as, h1, h2, h3, h4⟩ := float_operands hσ h hv
  have hσS : Positive S σ := fun i hi => hσ i (.inl hi)
  have hsub : ∀ x ∈ xs, ∀ i ∈ x.axes, S i ∨ i ∈ own := by
    intro x hx
    obtain ⟨v, _, hm⟩ := forall₂_mem_left h hx
    exact hm.1
  set res := (alignment (xs.map Axial.axes)).filter fun i => decide (i ∉ sums) with hres
  have mres : ∀ i, i ∈ res ↔ (∃ x ∈ xs, i ∈ x.axes) ∧ i ∉ sums := by
    intro i
    rw [hres, List.mem_filter, mem_alignment]
    simp
  have hresS : ∀ i ∈ res, S i := by
    intro i hi'
    obtain ⟨⟨x, hx, hix⟩, hs⟩ := (mres i).1 hi'
    rcases hsub x hx i hix with h | h
    · exact h
    · exact absurd (hown i h) hs
  set L := xs.flatMap Axial.axes with hL
  have mL : ∀ i, i ∈ L ↔ ∃ x ∈ xs, i ∈ x.axes := by intro i; rw [hL, List.mem_flatMap]
  set dims := L.map (fun i => (i, σ i)) with hdims
  have hlab : ∀ i ∈ L, NArr.labelled dims i = σ i := by
    intro i hi'
    have := labelled_map L σ hi' []
    rwa [List.append_nil] at this
  have hfst : dims.map Prod.fst = L := by rw [hdims, List.map_map]; simp [Function.comp_def]
  set con := (dims.map Prod.fst).dedup.filter (fun x => decide (x ∉ res)) with hcon
  have mcon : ∀ i, i ∈ con ↔ i ∈ own := by
    intro i
    rw [hcon, List.mem_filter, List.mem_dedup, hfst, mL]
    simp only [decide_eq_true_eq, mres, not_and, not_not]
    constructor
    · rintro ⟨⟨x, hx, hix⟩, h'⟩
      rcases hsub x hx i hix with h | h
      · exact absurd h (hS i (h' ⟨x, hx, hix⟩))
      · exact h
    · exact fun hi' => ⟨hax i hi', fun _ => hown i hi'⟩
  have hcn : con.Nodup := (List.nodup_dedup _).filter _
  have hperm : con.Perm own := (List.perm_ext_iff_of_nodup hcn hn).2 mcon
  have hconL : ∀ i ∈ con, i ∈ L := fun i hi' => (mL i).2 (hax i ((mcon i).1 hi'))
  have hlen : xs.length = as.length := by simpa using h1.length_eq
  have hcs : con.map (NArr.labelled dims) = con.map σ := List.map_congr_left fun i hi' => hlab i (hconL i hi')
  have hrs : res.map (NArr.labelled dims) = res.map σ :=
    List.map_congr_left fun i hi' => hlab i ((mL i).2 ((mres i).1 hi').1)
  have hvl : vs ≠ [] := by
    intro e
    subst e
    cases h
    exact hne rfl
  have inner : ∀ ρ, Valid S σ ρ → ∀ kx ∈ Arr.indices (con.map σ),
      (mapOpt (fun p : List Nat × A F => p.2.get? (p.1.map
        (NArr.labelled (res.zip (res.map ρ) ++ con.zip kx)))) ((xs.map Axial.axes).zip as)).bind prodScal =
      some (.f ((vs.map fun v => floatOf (v (assign con kx ρ))).prod)) := by
    intro ρ hρ kx hkx
    rw [Arr.mem_indices] at hkx
    have hval : Valid (fun i => S i ∨ i ∈ own) σ (assign con kx ρ) := by
      intro i hi'
      by_cases hic : i ∈ con
      · exact assign_lt hkx hcn ρ i hic
      · rw [assign_out hic]
        rcases hi' with h | h
        · exact hρ i h
        · exact absurd ((mcon i).2 h) hic
    have henv : ∀ i ∈ L, NArr.labelled (res.zip (res.map ρ) ++ con.zip kx) i = assign con kx ρ i := by
      intro i hi'
      rw [zip_map_self]
      by_cases hir : i ∈ res
      · rw [labelled_map res ρ hir, assign_out]
        intro hic
        exact ((mres i).1 hir).2 (hown i ((mcon i).1 hic))
      · rw [labelled_skip res ρ hir, assign_in _ hcn (by simpa using hkx.length)]
        rw [hcon, List.mem_filter, List.mem_dedup, hfst]
        exact ⟨hi', by simpa using hir⟩
    have : mapOpt (fun p : List Nat × A F => p.2.get? (p.1.map
        (NArr.labelled (res.zip (res.map ρ) ++ con.zip kx)))) ((xs.map Axial.axes).zip as) =
        mapOpt (fun p : List Nat × A F => p.2.get? (p.1.map (assign con kx ρ))) ((xs.map Axial.axes).zip as) := by
      refine mapOpt_congr fun p hp => ?_
      congr 1
      refine List.map_congr_left fun i hi' => henv i ((mL i).2 ?_)
      obtain ⟨x, hx, e⟩ := List.mem_map.1 (List.of_mem_zip (a := p.1) (b := p.2) hp).1
      exact ⟨x, hx, e ▸ hi'⟩
    rw [this, h4 _ hval, Option.bind_some]
    have e : (vs.map fun v => (.f (floatOf (v (assign con kx ρ))) : Scal F)) =
        (vs.map fun v => floatOf (v (assign con kx ρ))).map .f := by simp [Function.comp_def]
    rw [e, prodScal_floats (by simpa using hvl)]
  have outer : ∀ ρ, Valid S σ ρ →
      (mapOpt (fun kx => (mapOpt (fun p : List Nat × A F => p.2.get? (p.1.map
        (NArr.labelled (res.zip (res.map ρ) ++ con.zip kx)))) ((xs.map Axial.axes).zip as)).bind prodScal)
        (Arr.indices (con.map (NArr.labelled dims)))).bind sumScal =
      some (.f (sumOver σ own (fun ρ => (vs.map fun v => floatOf (v ρ)).prod) ρ)) := by
    intro ρ hρ
    rw [hcs, Backend.mapOpt_some (inner ρ hρ), Option.bind_some]
    have e : ((Arr.indices (con.map σ)).map fun kx =>
        (.f ((vs.map fun v => floatOf (v (assign con kx ρ))).prod) : Scal F)) =
        ((Arr.indices (con.map σ)).map fun kx => (vs.map fun v => floatOf (v (assign con kx ρ))).prod).map .f := by
      simp [Function.comp_def]
    rw [e, sumScal_floats, sum_indices σ (fun ρ => (vs.map fun v => floatOf (v ρ)).prod) con ρ,
      sumOver_perm σ _ hperm hcn]
  obtain ⟨b, hb, hbs, hbg⟩ := NArr.ofFn?_spec (s := res.map (NArr.labelled dims)) (f := fun ix =>
      (mapOpt (fun kx => (mapOpt (fun p : List Nat × A F => p.2.get? (p.1.map
        (NArr.labelled (res.zip ix ++ con.zip kx)))) ((xs.map Axial.axes).zip as)).bind prodScal)
        (Arr.indices (con.map (NArr.labelled dims)))).bind sumScal) (by
    intro ix hix
    rw [hrs] at hix
    obtain ⟨ρ, jx, hρ, hj, rfl⟩ := valid_position hσS hi (s := []) (by simpa using hix)
    rw [inRange_nil] at hj
    subst hj
    rw [List.append_nil, outer ρ hρ]
    rfl)
  refine One.means (a := b) (s := []) ⟨hresS, ?_, ?_, hi, by rw [hbs, hrs, List.append_nil], fun ρ hρ => ?_⟩
  · rw [Yarr.eval_node]
    simp only [Yarr.den, arrsOf_forall₂ h1, Option.bind_some]
    rw [einsum_letters _ _ _ _ _ hletters]
    simp only [NArr.einsum, dims_eq h3]
    rw [if_pos]
    · rw [← hL, ← hdims, ← hcon, hb]
      rfl
    · refine ⟨by simpa using hlen, ?_, ?_, hi, ?_⟩
      · intro p hp
        rw [h3, List.zip_map', List.mem_map] at hp
        obtain ⟨x, _, rfl⟩ := hp
        simp
      · intro p hp
        rw [← hL] at hp ⊢
        obtain ⟨i, hi', rfl⟩ := List.mem_map.1 hp
        exact (hlab i hi').symm
      · intro i hi'
        rw [← hL, ← hdims, hfst]
        exact (mL i).2 ((mres i).1 hi').1
  · exact rankOk_node (by trivial) h2
  · refine ⟨_, rfl, _, rfl, ?_⟩
    simp only [List.append_nil]
    rw [hbg _ (by rw [hrs]; exact inRange_map.2 fun i hi' => hρ i (hresS i hi'))]
    exact outer ρ hρ

/-! ### The sum of all products -/

theorem Reads.congr {α : Type} {b : NArr α} {axes into : List Nat} {σ : Nat → Nat} {v w : (Nat → Nat) → Option α}
    (h : Reads b axes into σ v) (e : ∀ ρ : Nat → Nat, (∀ x ∈ into, ρ x < σ x) → v ρ = w ρ) :
    Reads b axes into σ w := ⟨h.ex, fun ρ hρ => (h.read ρ hρ).trans (e ρ hρ)⟩

/-- Additions one after another. -/
theorem add_chain {into : List Nat} (hi : into.Nodup) (hσ : ∀ x ∈ into, 0 < σ x)
    (ops : List (List Nat × A F × ((Nat → Nat) → F))) : ∀ (es : List (YExpr F)),
    List.Forall₂ (fun e (o : List Nat × A F × ((Nat → Nat) → F)) => Yarr.eval J e yenv = some (.arr o.2.1) ∧
      RankOk J yenv e ∧ Reads o.2.1 o.1 into σ fun ρ => some (.f (o.2.2 ρ))) es ops →
    ∀ (e : YExpr F) (a : A F) (xs : List Nat) (g : (Nat → Nat) → F), Yarr.eval J e yenv = some (.arr a) →
      RankOk J yenv e → Reads a xs into σ (fun ρ => some (.f (g ρ))) →
      ∃ c, Yarr.eval J (addCode e es) yenv = some (.arr c) ∧ RankOk J yenv (addCode e es) ∧
        Reads c (xs ++ ops.flatMap Prod.fst) into σ fun ρ => some (.f (g ρ + (ops.map fun o => o.2.2 ρ).sum)) := by
  induction ops with
  | nil =>
    intro es hes e a xs g h1 h2 h3
    cases hes
    exact ⟨a, h1, h2, by simpa using h3⟩
  | cons o ops ih =>
    intro es hes e a xs g h1 h2 h3
    cases hes with
    | @cons e' _ es' _ ho hes =>
      obtain ⟨q1, q2, q3⟩ := ho
      obtain ⟨c, hc, hr⟩ := zip2_reads (f := applyOp .add) hi h3 q3 hσ fun ρ _ => ⟨_, _, _, rfl, rfl, add_floats _ _⟩
      obtain ⟨c', hc1, hc2, hc3⟩ := ih es' hes (node (.elem .add none) [e, e']) c (xs ++ o.1) (fun ρ => g ρ + o.2.2 ρ) (by
          rw [Yarr.eval_node]
          have h4 : List.Forall₂ (fun e b => Yarr.eval J e yenv = some (.arr b)) [e, e'] [a, o.2.1] :=
            .cons h1 (.cons q1 .nil)
          simp only [Yarr.den, arrsOf_forall₂ h4, Option.bind_some, hc]) (rankOk_node (by trivial) (by
          intro t ht
          simp only [List.mem_cons, List.not_mem_nil, or_false] at ht
          rcases ht with rfl | rfl
          · exact h2
          · exact q2)) (hr.congr fun ρ _ => by simp only [Option.bind_some, add_floats])
      refine ⟨c', hc1, hc2, ?_⟩
      simpa only [List.flatMap_cons, List.map_cons, List.sum_cons, List.append_assoc, add_assoc] using hc3

/-- The code of a sum of products computes the sum. -/
theorem means_sum (hσ : Positive S σ) {xs : List (Axial F)} {gs : List ((Nat → Nat) → F)}
    (h : List.Forall₂ (fun x g => Means J yenv S σ x fun ρ => some (.sc (.f (g ρ)))) xs gs) {e : YExpr F}
    {es : List (YExpr F)} {y : Axial F}
    (hes : mapOpt (fun x : Axial F => x.aligned (alignment (xs.map Axial.axes)) false) xs = some (e :: es))
    (hy : Axial.mk? (alignment (xs.map Axial.axes)) (addCode e es) = some y) :
    Means J yenv S σ y fun ρ => some (.sc (.f ((gs.map fun g => g ρ).sum))) := by
  obtain ⟨rfl, hi, -⟩ := mk?_eq_some hy
  have hS : ∀ i ∈ alignment (xs.map Axial.axes), S i := by
    intro i hi'
    obtain ⟨axes, ha, hia⟩ := mem_alignment.1 hi'
    obtain ⟨x, hx, rfl⟩ := List.mem_map.1 ha
    obtain ⟨v, _, hm⟩ := forall₂_mem_left h hx
    exact hm.1 i hia
  have parts : ∀ (into : List Nat), into.Nodup → (∀ i ∈ into, S i) → ∀ es,
      mapOpt (fun x : Axial F => x.aligned into false) xs = some es →
      ∃ ops : List (List Nat × A F × ((Nat → Nat) → F)), ops.map Prod.fst = xs.map Axial.axes ∧
        (∀ ρ, Valid S σ ρ → ops.map (fun o => o.2.2 ρ) = gs.map fun g => g ρ) ∧
        List.Forall₂ (fun e (o : List Nat × A F × ((Nat → Nat) → F)) => Yarr.eval J e yenv = some (.arr o.2.1) ∧
          RankOk J yenv e ∧ Reads o.2.1 o.1 into σ fun ρ => some (.f (o.2.2 ρ))) es ops := by
    intro into hin hinS
    clear hes hy hi hS
    induction h with
    | nil =>
      intro es hes
      simp [mapOpt] at hes
      subst hes
      exact ⟨[], rfl, fun _ _ => rfl, .nil⟩
    | @cons x g xs gs hx _ ih =>
      intro es hes
      simp only [mapOpt, Option.bind_eq_some_iff, Option.some.injEq] at hes
      obtain ⟨y, hy, es', hes', rfl⟩ := hes
      obtain ⟨ops, h1, h2, h3⟩ := ih es' hes'
      obtain ⟨a, ho, ha⟩ := hx.scal hσ fun ρ _ => ⟨_, rfl⟩
      unfold Axial.aligned at hy
      simp only [Option.bind_eq_some_iff] at hy
      obtain ⟨k, hk, hy⟩ := hy
      rw [if_pos (ho.arity hk)] at hy
      have hsub : ∀ i ∈ x.axes, i ∈ into := by
        unfold align at hy
        simp only [Option.bind_eq_some_iff] at hy
        obtain ⟨r, _, hy⟩ := hy
        split at hy
        · rename_i h; exact h.2
        · cases hy
      obtain ⟨b, hb, hbr, hp⟩ := align_eval hy ho.value ho.rank ho.nodup hin ho.shape (by intro x n h; cases h)
      have hspread : Spread a b x.axes into σ := by
        refine Placed.spread (leftpad := false) ?_ hsub
        simpa [noRepeats] using hp
      -- the value only depends on the indices in `into`
      let ext : (Nat → Nat) → Nat → Nat := fun ρ i => if i ∈ into then ρ i else 0
      have hext : ∀ ρ : Nat → Nat, (∀ i ∈ into, ρ i < σ i) → Valid S σ (ext ρ) := by
        intro ρ hρ i hi
        dsimp only [ext]
        split
        · exact hρ i (by assumption)
        · exact hσ i hi
      refine ⟨(x.axes, b, fun ρ => g (ext ρ)) :: ops, by simp [h1], fun ρ hρ => ?_, .cons ⟨hb, hbr, ?_⟩ h3⟩
      · rw [List.map_cons, List.map_cons, h2 ρ hρ]
        congr 1
        have e1 := ha ρ hρ
        have e2 := ha (ext ρ) (hext ρ fun i hi => hρ i (hinS i hi))
        have e3 : x.axes.map (ext ρ) = x.axes.map ρ := List.map_congr_left fun i hi => if_pos (hsub i hi)
        rw [e3, ← e1] at e2
        simp only [Option.bind_some, Val.asScal, Option.some.injEq, Scal.f.injEq] at e2
        exact e2
      · refine hspread.reads.congr fun ρ hρ => ?_
        have e2 := ha (ext ρ) (hext ρ hρ)
        have e3 : x.axes.map (ext ρ) = x.axes.map ρ := List.map_congr_left fun i hi => if_pos (hsub i hi)
        rw [e3] at e2
        rw [← e2]
        rfl
  obtain ⟨ops, h1, h2, h3⟩ := parts _ hi hS _ hes
  cases h3 with
  | @cons _ o _ ops ho h3 =>
    obtain ⟨c, hc1, hc2, hc3⟩ := add_chain hi (fun i hi' => hσ i (hS i hi')) ops es h3 e o.2.1 o.1 o.2.2 ho.1 ho.2.1 ho.2.2
    obtain ⟨hs, hg⟩ := hc3.full hi (by
      intro i hi'
      obtain ⟨axes, ha, hia⟩ := mem_alignment.1 hi'
      rw [← h1] at ha
      rcases List.mem_cons.1 ha with rfl | ha
      · exact List.mem_append_left _ hia
      · obtain ⟨q, hq, rfl⟩ := List.mem_map.1 ha
        exact List.mem_append_right _ (List.mem_flatMap.2 ⟨q, hq, hia⟩))
    refine One.means (a := c) (s := []) ⟨hS, hc1, hc2, hi, by simpa using hs, fun ρ hρ => ⟨_, rfl, _, rfl, ?_⟩⟩
    simp only [List.append_nil]
    rw [hg ρ fun i hi' => hρ i (hS i hi'), ← h2 ρ hρ, List.map_cons, List.sum_cons]

/-- A product: the indices over which it is summed, and the values of its factors. -/
abbrev Product (F : Type) := List Nat × List ((Nat → Nat) → Option (D F))

/-- The code of nested sums of products computes them. -/
theorem means_einsum (hσ : Positive S σ) {sums : List Nat} (hS : ∀ i ∈ sums, ¬ S i) {products : List (List (Axial F))}
    {ps : List (Product F)} {y : Axial F}
    (h : List.Forall₂ (fun xs (p : Product F) =>
      List.Forall₂ (fun x v => Means J yenv (fun i => S i ∨ i ∈ p.1) σ x v) xs p.2 ∧
        Positive (fun i => S i ∨ i ∈ p.1) σ ∧
        (∀ v ∈ p.2, ∀ ρ, Valid (fun i => S i ∨ i ∈ p.1) σ ρ → ∃ c : F, v ρ = some (.sc (.f c))) ∧ xs ≠ [] ∧
        p.1.Nodup ∧ (∀ i ∈ p.1, i ∈ sums) ∧ ∀ i ∈ p.1, ∃ x ∈ xs, i ∈ x.axes) products ps)
    (hy : einsumCode sums products = some y) :
    Means J yenv S σ y fun ρ => some (.sc (.f ((ps.map fun p =>
      sumOver σ p.1 (fun ρ => (p.2.map fun v => floatOf (v ρ)).prod) ρ).sum))) := by
  unfold einsumCode at hy
  simp only [Option.bind_eq_some_iff] at hy
  obtain ⟨ss, hss, es, hes, hy⟩ := hy
  cases es with
  | nil => cases hy
  | cons e es =>
    have h2 : List.Forall₂ (fun x g => Means J yenv S σ x fun ρ => some (.sc (.f (g ρ)))) ss
        (ps.map fun p => sumOver σ p.1 fun ρ => (p.2.map fun v => floatOf (v ρ)).prod) := by
      clear hes hy
      induction h generalizing ss with
      | nil => simp [mapOpt] at hss; subst hss; exact .nil
      | cons h0 _ ih =>
        simp only [mapOpt, Option.bind_eq_some_iff, Option.some.injEq] at hss
        obtain ⟨x, hx, ss', hss', rfl⟩ := hss
        obtain ⟨q1, q2, q3, q4, q5, q6, q7⟩ := h0
        exact .cons (means_product q1 q4 q2 q3 hS q5 q6 q7 hx) (ih _ hss')
    have := means_sum hσ h2 hes hy
    simpa only [List.map_map, Function.comp_def] using this

end

end Verif.Codegen
