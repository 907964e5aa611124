import Verif.Codegen.Reps
import Verif.Codegen.Tuples
import Verif.Codegen.Compile

/-!
What it means that array code with named axes computes a value for every assignment of the indices in
scope, and the constructs of the compiler that keep this.
-/

set_option linter.unusedSectionVars false

namespace Verif.Codegen
open Verif.Phi Verif.Term Verif.Yarr Verif.Arr
variable {F : Type} [FloatOps F] {J : YExt F} {yenv : Env (YVal F)}

/-- The code evaluates to the arrays `as`; the leading axes of each belong to the indices of the code and
have their sizes. -/
structure Code (J : YExt F) (yenv : Env (YVal F)) (σ : Nat → Nat) (x : Axial F) (as : List (A F))
    (ss : List (List Nat)) : Prop where
  value : Yarr.eval J x.expr yenv = some (pack as)
  rank : RankOk J yenv x.expr
  nodup : x.axes.Nodup
  shape : List.Forall₂ (fun (a : A F) s => a.shape = x.axes.map σ ++ s) as ss

/-- The parts of the arrays at an assignment of the indices. -/
def views (axes : List Nat) (ρ : Nat → Nat) (as : List (A F)) (ss : List (List Nat)) :
    List (List Nat × (List Nat → Option (Scal F))) :=
  List.zipWith (fun a s => (s, fun jx => a.get? (axes.map ρ ++ jx))) as ss

/-- An assignment of the indices `S` within their sizes. -/
def Valid (S : Nat → Prop) (σ ρ : Nat → Nat) : Prop := ∀ i, S i → ρ i < σ i

/-- For every assignment the code holds the value `v` at this assignment. -/
def Means (J : YExt F) (yenv : Env (YVal F)) (S : Nat → Prop) (σ : Nat → Nat) (x : Axial F)
    (v : (Nat → Nat) → Option (D F)) : Prop :=
  (∀ i ∈ x.axes, S i) ∧ ∃ as ss, Code J yenv σ x as ss ∧
    ∀ ρ, Valid S σ ρ → ∃ w, v ρ = some w ∧ RepsAll w (views x.axes ρ as ss)

/-- The same for code with one array. -/
structure One (J : YExt F) (yenv : Env (YVal F)) (S : Nat → Prop) (σ : Nat → Nat) (x : Axial F)
    (v : (Nat → Nat) → Option (D F)) (a : A F) (s : List Nat) : Prop where
  sub : ∀ i ∈ x.axes, S i
  value : Yarr.eval J x.expr yenv = some (.arr a)
  rank : RankOk J yenv x.expr
  nodup : x.axes.Nodup
  shape : a.shape = x.axes.map σ ++ s
  reps : ∀ ρ, Valid S σ ρ → ∃ w, v ρ = some w ∧ Reps s (fun jx => a.get? (x.axes.map ρ ++ jx)) w

variable {S : Nat → Prop} {σ : Nat → Nat}

theorem One.means {x : Axial F} {v : (Nat → Nat) → Option (D F)} {a : A F} {s : List Nat}
    (h : One J yenv S σ x v a s) : Means J yenv S σ x v :=
  ⟨h.sub, [a], [s], ⟨h.value, h.rank, h.nodup, .cons h.shape .nil⟩, fun ρ hρ => by
    obtain ⟨w, h1, h2⟩ := h.reps ρ hρ
    exact ⟨w, h1, RepsAll.single.2 h2⟩⟩

theorem Means.congr {x : Axial F} {v v' : (Nat → Nat) → Option (D F)} (h : Means J yenv S σ x v)
    (e : ∀ ρ, Valid S σ ρ → v ρ = v' ρ) : Means J yenv S σ x v' := by
  obtain ⟨h0, as, ss, h1, h2⟩ := h
  exact ⟨h0, as, ss, h1, fun ρ hρ => by rw [← e ρ hρ]; exact h2 ρ hρ⟩

theorem One.congr {x : Axial F} {v v' : (Nat → Nat) → Option (D F)} {a : A F} {s : List Nat}
    (h : One J yenv S σ x v a s) (e : ∀ ρ, Valid S σ ρ → v ρ = v' ρ) : One J yenv S σ x v' a s :=
  { h with reps := fun ρ hρ => by rw [← e ρ hρ]; exact h.reps ρ hρ }

/-- Every size in scope is positive. -/
def Positive (S : Nat → Prop) (σ : Nat → Nat) : Prop := ∀ i, S i → 0 < σ i

theorem valid_zero (hσ : Positive S σ) : Valid S σ fun _ => 0 := fun i hi => hσ i hi

/-- An assignment of some indices can be extended. -/
theorem valid_extend (hσ : Positive S σ) {axes : List Nat} {ρ : Nat → Nat} (h : ∀ i ∈ axes, ρ i < σ i) :
    ∃ ρ', Valid S σ ρ' ∧ axes.map ρ' = axes.map ρ := by
  refine ⟨fun i => if i ∈ axes then ρ i else 0, fun i hi => ?_, List.map_congr_left fun i hi => by simp [hi]⟩
  dsimp only
  split
  · rename_i hm; exact h i hm
  · exact hσ i hi

/-- Every position of an array with axes is the position of a valid assignment. -/
theorem valid_position (hσ : Positive S σ) {axes s ix : List Nat} (hn : axes.Nodup)
    (h : InRange (axes.map σ ++ s) ix) :
    ∃ ρ jx, Valid S σ ρ ∧ InRange s jx ∧ ix = axes.map ρ ++ jx := by
  obtain ⟨ρ, jx, rfl, h1, h2⟩ := inRange_assignment hn h
  obtain ⟨ρ', h3, h4⟩ := valid_extend hσ h1
  exact ⟨ρ', jx, h3, h2, by rw [h4]⟩

theorem views_length {axes : List Nat} {ρ : Nat → Nat} {as : List (A F)} {ss : List (List Nat)} :
    (views axes ρ as ss).length = min as.length ss.length := by simp [views]

/-- Code of which the value is not a pair has one array. -/
theorem Means.one_of {x : Axial F} {v : (Nat → Nat) → Option (D F)} (h : Means J yenv S σ x v)
    (hσ : Positive S σ) (hv : ∀ a b, v (fun _ => 0) ≠ some (.pair a b)) : ∃ a s, One J yenv S σ x v a s := by
  obtain ⟨h0, as, ss, hc, hr⟩ := h
  obtain ⟨w, h1, h2⟩ := hr _ (valid_zero hσ)
  obtain ⟨s, f, h3, _⟩ := h2.one (fun a b e => hv a b (by rw [h1, e]))
  have hl : as.length = ss.length := hc.shape.length_eq
  have : as.length = 1 := by
    have := congrArg List.length h3
    rw [views_length, hl] at this
    simp at this; omega
  obtain ⟨a, rfl⟩ := List.length_eq_one_iff.1 this
  obtain ⟨s', rfl⟩ := List.length_eq_one_iff.1 (hl ▸ this)
  refine ⟨a, s', h0, hc.value, hc.rank, hc.nodup, ?_, fun ρ hρ => ?_⟩
  · have := hc.shape; simp at this; exact this
  · obtain ⟨w, h1, h2⟩ := hr ρ hρ
    exact ⟨w, h1, RepsAll.single.1 h2⟩

/-- Code of which the type is one array has one array. -/
theorem Means.one {x : Axial F} {v : (Nat → Nat) → Option (D F)} (h : Means J yenv S σ x v) {r : Nat}
    (hr : rankOf x.expr = some r) : ∃ a s, One J yenv S σ x v a s ∧ r = x.axes.length + s.length := by
  obtain ⟨h0, as, ss, hc, hv⟩ := h
  have hl : as.length = ss.length := hc.shape.length_eq
  have : as.length = 1 := by
    unfold rankOf at hr
    cases ht : Yarr.typeOf x.expr with
    | none => rw [ht] at hr; cases hr
    | some τ =>
      rw [ht] at hr
      simp only [Option.bind_some, Option.map_eq_some_iff] at hr
      obtain ⟨b, hb, _⟩ := hr
      have e := single_eq hb
      subst e
      have := congrArg List.length (hc.rank _ _ ht hc.value)
      rw [pack_arrs] at this
      simpa using this
  obtain ⟨a, rfl⟩ := List.length_eq_one_iff.1 this
  obtain ⟨s, rfl⟩ := List.length_eq_one_iff.1 (hl ▸ this)
  have hs : a.shape = x.axes.map σ ++ s := by have := hc.shape; simp at this; exact this
  refine ⟨a, s, ⟨h0, hc.value, hc.rank, hc.nodup, hs, fun ρ hρ => ?_⟩, ?_⟩
  · obtain ⟨w, h1, h2⟩ := hv ρ hρ
    exact ⟨w, h1, RepsAll.single.1 h2⟩
  · rw [← hc.rank.rankOf hc.value hr, NArr.rank, hs]; simp

/-- The type of code with one array. -/
theorem One.arity {x : Axial F} {v : (Nat → Nat) → Option (D F)} {a : A F} {s : List Nat}
    (h : One J yenv S σ x v a s) {k : Nat} (hk : arityOf x.expr = some k) : k = 1 := by
  unfold arityOf at hk
  cases ht : Yarr.typeOf x.expr with
  | none => rw [ht] at hk; cases hk
  | some τ =>
    rw [ht] at hk
    simp at hk
    have := congrArg List.length (h.rank _ _ ht h.value)
    simp [YVal.arrs] at this
    omega

/-- The value of code without axes that is an integer. -/
theorem One.int {x : Axial F} {v : (Nat → Nat) → Option (D F)} {a : A F} {s : List Nat}
    (h : One J yenv S σ x v a s) (hσ : Positive S σ) (hx : x.axes = []) {n : Int}
    (hv : v (fun _ => 0) = some (.int n)) :
    EvalsInt J yenv x.expr n ∧ ∀ ρ, Valid S σ ρ → v ρ = some (.int n) := by
  obtain ⟨w, h1, h2⟩ := h.reps _ (valid_zero hσ)
  rw [hv] at h1
  cases h1
  obtain ⟨rfl, h3⟩ := Reps.sc h2
  have hs := h.shape
  rw [hx] at hs h3
  obtain ⟨y, rfl, hy⟩ := NArr.eq_scalar_of_shape hs
  simp at h3
  subst h3
  refine ⟨h.value, fun ρ hρ => ?_⟩
  obtain ⟨w, h4, h5⟩ := h.reps ρ hρ
  obtain ⟨y, rfl, h6⟩ := h5
  rw [hx] at h6
  simp at h6
  subst h6
  exact h4

theorem Means.int {x : Axial F} {v : (Nat → Nat) → Option (D F)} (h : Means J yenv S σ x v)
    (hσ : Positive S σ) {y : YExpr F} (hy : x.normal = some y)
    (hv : ∀ ρ, Valid S σ ρ → ∃ n : Int, v ρ = some (.int n)) :
    ∃ n : Int, EvalsInt J yenv y n ∧ RankOk J yenv y ∧ ∀ ρ, Valid S σ ρ → v ρ = some (.int n) := by
  obtain ⟨n, hn⟩ := hv _ (valid_zero hσ)
  obtain ⟨a, s, ho⟩ := h.one_of hσ (by rw [hn]; intro a b e; cases e)
  unfold Axial.normal at hy
  split at hy
  · cases hy
    rename_i hx
    obtain ⟨h1, h2⟩ := ho.int hσ hx hn
    exact ⟨n, h1, ho.rank, h2⟩
  · cases hy

/-! Each construct. -/

/-- An index (`phi_to_yarr.py:49-53`). -/
theorem one_range {i : Nat} {z : YExpr F} {y : Axial F} (hi : S i)
    (hz : EvalsInt J yenv z (σ i)) (hr : RankOk J yenv z)
    (hy : Axial.mk? [i] (node .range [z]) = some y) :
    Means J yenv S σ y fun ρ => some (.int (ρ i)) := by
  obtain ⟨rfl, hn, -⟩ := mk?_eq_some hy
  obtain ⟨a, ha, hs, hg⟩ : ∃ a : A F, (NArr.range (σ i)).mapM? (fun i => some (.i i)) = some a ∧
      a.shape = [σ i] ∧ ∀ k, k < σ i → a.get? [k] = some (.i k) := by
    have key : ∀ k < σ i, (NArr.range (σ i)).get? [k] = some (k : Int) := by
      intro k hk
      unfold NArr.range
      simp only [Int.toNat_natCast]
      rw [NArr.get?_ofFn _ (by simp [hk])]
      simp
    have hsh : (NArr.range (σ i)).shape = [σ i] := by unfold NArr.range; simp [NArr.shape_ofFn]
    unfold NArr.mapM?
    rw [hsh]
    obtain ⟨a, h1, h2, h3⟩ := NArr.ofFn?_spec (s := [σ i])
      (f := fun ix => ((NArr.range (σ i)).get? ix).bind fun i => some (Scal.i i : Scal F)) (by
        intro ix hix
        rcases ix with _ | ⟨k, _ | ⟨k', ix⟩⟩
        · simp at hix
        · simp at hix; simp [key k hix]
        · simp at hix)
    refine ⟨a, h1, h2, fun k hk => ?_⟩
    rw [h3 _ (by simp [hk]), key k hk]; rfl
  refine One.means (a := a) (s := []) ⟨by simpa using hi, ?_, ?_, hn, by simp [hs], fun ρ hρ => ?_⟩
  · rw [Yarr.eval_node]
    have hz' : Yarr.eval J z yenv = _ := hz
    simp only [List.map_cons, List.map_nil, Yarr.den, arr1, hz', Option.bind_some, YVal.asArr, asSize_scalar, ha]
  · exact rankOk_node (by trivial) (by intro t ht; simp at ht; subst ht; exact hr)
  · exact ⟨_, rfl, _, rfl, by simpa using hg _ (hρ i hi)⟩

/-- `Dim` (`phi_to_yarr.py:73-78`). -/
theorem means_dim {x y : Axial F} {v : (Nat → Nat) → Option (D F)} {k p : Nat} (h : Means J yenv S σ x v)
    (hp : x.positional k = some p) (hy : Axial.mk? [] (node (.dim p) [x.expr]) = some y) :
    Means J yenv S σ y fun ρ => dimOf k (v ρ) := by
  obtain ⟨rfl, hn, -⟩ := mk?_eq_some hy
  unfold Axial.positional at hp
  simp only [Option.bind_eq_some_iff] at hp
  obtain ⟨r, hr, hp⟩ := hp
  obtain ⟨a, s, ho, hrs⟩ := h.one hr
  split at hp
  · cases hp
    rename_i hk
    have hk' : k < s.length := by omega
    have hd : a.shape[x.axes.length + k]? = some s[k] := by
      rw [ho.shape, List.getElem?_append_right (by simp)]
      simp [hk']
    refine One.means (a := .scalar (.i s[k])) (s := []) ⟨by simp, ?_, ?_, hn, rfl, fun ρ hρ => ?_⟩
    · rw [Yarr.eval_node]
      simp only [List.map_cons, List.map_nil, Yarr.den, arr1, ho.value, Option.bind_some, YVal.asArr, hd]
      rfl
    · exact rankOk_node (by trivial) (by intro t ht; simp at ht; subst ht; exact ho.rank)
    · obtain ⟨w, h1, h2⟩ := ho.reps ρ hρ
      refine ⟨.int s[k], ?_, _, rfl, rfl⟩
      simp only [dimOf, h1, Option.bind_some, h2.dim, List.getElem?_eq_getElem hk']
  · cases hp

/-- The conversion to float (`phi_to_yarr.py:260-265`). -/
theorem means_cast {x y : Axial F} {v : (Nat → Nat) → Option (D F)} (h : Means J yenv S σ x v)
    (hσ : Positive S σ) (hy : Axial.mk? x.axes (node (.cast .float) [x.expr]) = some y)
    (hdef : ∀ ρ, Valid S σ ρ → ∃ w, opOf .castToFloat [v ρ] = some w) :
    Means J yenv S σ y fun ρ => opOf .castToFloat [v ρ] := by
  obtain ⟨rfl, hn, -⟩ := mk?_eq_some hy
  have key : ∀ ρ, Valid S σ ρ → ∃ n : Int, v ρ = some (.int n) ∧
      opOf .castToFloat [v ρ] = some (.sc (.f (FloatOps.ofInt n))) := by
    intro ρ hρ
    obtain ⟨w, hw⟩ := hdef ρ hρ
    cases hv : v ρ with
    | none => rw [hv] at hw; cases hw
    | some u =>
      rw [hv] at hw
      cases u with
      | sc c => cases c with
        | i n => exact ⟨n, rfl, rfl⟩
        | b _ => cases hw
        | f _ => cases hw
      | vec _ => cases hw
      | pair _ _ => cases hw
  obtain ⟨a, s, ho⟩ := h.one_of hσ (by
    obtain ⟨n, hn, _⟩ := key _ (valid_zero hσ)
    rw [hn]; intro a b e; cases e)
  have hs : s = [] := by
    obtain ⟨n, hn, _⟩ := key _ (valid_zero hσ)
    obtain ⟨w, h1, h2⟩ := ho.reps _ (valid_zero hσ)
    rw [hn] at h1; cases h1
    exact (Reps.sc h2).1
  subst hs
  have hel : ∀ ρ, Valid S σ ρ → ∃ n : Int, v ρ = some (.int n) ∧ a.get? (x.axes.map ρ) = some (.i n) := by
    intro ρ hρ
    obtain ⟨n, h1, _⟩ := key ρ hρ
    obtain ⟨w, h2, h3⟩ := ho.reps ρ hρ
    rw [h1] at h2; cases h2
    have := (Reps.sc h3).2
    exact ⟨n, h1, by simpa using this⟩
  obtain ⟨b, hb1, hb2, hb3⟩ : ∃ b, a.mapM? (castScal .float) = some b ∧ b.shape = a.shape ∧
      ∀ ix, InRange a.shape ix → b.get? ix = (a.get? ix).bind (castScal .float) := by
    unfold NArr.mapM?
    refine NArr.ofFn?_spec (fun ix hix => ?_)
    obtain ⟨ρ, jx, h1, h2, rfl⟩ := valid_position hσ ho.nodup (ho.shape ▸ hix)
    simp at h2; subst h2
    obtain ⟨n, _, h3⟩ := hel ρ h1
    simp [h3, castScal]
  refine One.means (a := b) (s := []) ⟨ho.sub, ?_, ?_, hn, by rw [hb2, ho.shape], fun ρ hρ => ?_⟩
  · rw [Yarr.eval_node]
    simp only [List.map_cons, List.map_nil, Yarr.den, arr1, ho.value, Option.bind_some, YVal.asArr, hb1]
  · exact rankOk_node (by trivial) (by intro t ht; simp at ht; subst ht; exact ho.rank)
  · obtain ⟨n, h1, h2⟩ := hel ρ hρ
    obtain ⟨n', h3, h4⟩ := key ρ hρ
    rw [h1] at h3; cases h3
    refine ⟨_, h4, _, rfl, ?_⟩
    simp only [List.append_nil]
    rw [hb3 _ (NArr.inRange_of_get? h2), h2]; rfl

theorem exists_list {β : Type} {P : Nat → β → Prop} (n : Nat) (h : ∀ i < n, ∃ b, P i b) :
    ∃ bs : List β, bs.length = n ∧ ∀ i (hi : i < bs.length), P i bs[i] := by
  induction n with
  | zero => exact ⟨[], rfl, fun i hi => by simp at hi⟩
  | succ n ih =>
    obtain ⟨bs, h1, h2⟩ := ih fun i hi => h i (by omega)
    obtain ⟨b, hb⟩ := h n (by omega)
    refine ⟨bs ++ [b], by simp [h1], fun i hi => ?_⟩
    by_cases hin : i < bs.length
    · rw [List.getElem_append_left hin]; exact h2 i hin
    · have : i = n := by simp at hi; omega
      subst this
      subst h1
      simpa using hb

/-- Two lists of views are the same inside the arrays. -/
def SameViews (l m : List (List Nat × (List Nat → Option (Scal F)))) : Prop :=
  List.Forall₂ (fun p q => p.1 = q.1 ∧ ∀ jx, InRange p.1 jx → p.2 jx = q.2 jx) l m

/-- One array that is moved to more axes, all of which get their size. -/
theorem align_code {e y : YExpr F} {a : A F} {s axes into : List Nat} {repeats : Nat → Option (YExpr F)}
    (he : Yarr.eval J e yenv = some (.arr a)) (hr : RankOk J yenv e) (hn : axes.Nodup)
    (hs : a.shape = axes.map σ ++ s) (hy : align e axes into true repeats = some y) (hi : into.Nodup)
    (hrep : ∀ i e, repeats i = some e → EvalsInt J yenv e (σ i) ∧ RankOk J yenv e)
    (hcov : ∀ i ∈ into, i ∈ axes ∨ (repeats i).isSome) :
    (∀ i ∈ axes, i ∈ into) ∧ ∃ b, Yarr.eval J y yenv = some (.arr b) ∧ RankOk J yenv y ∧
      b.shape = into.map σ ++ s ∧ ∀ ρ jx, (∀ i ∈ into, ρ i < σ i) → InRange s jx →
        a.get? (axes.map ρ ++ jx) = b.get? (into.map ρ ++ jx) := by
  have hsub : ∀ i ∈ axes, i ∈ into := by
    unfold align at hy
    simp only [Option.bind_eq_some_iff] at hy
    obtain ⟨r, _, hy⟩ := hy
    split at hy
    · rename_i h; exact h.2
    · cases hy
  obtain ⟨b, h1, h2, h3⟩ := align_eval hy he hr hn hi hs hrep
  have e1 : alignedAxes axes into true = into := rfl
  rw [e1] at h3
  have hD : ∀ i ∈ into, (if i ∈ axes ∨ (repeats i).isSome then σ i else 1) = σ i :=
    fun i hi => if_pos (hcov i hi)
  refine ⟨hsub, b, h1, h2, ?_, fun ρ jx hρ hj => ?_⟩
  · rw [h3.shape]; congr 1; exact List.map_congr_left hD
  · exact (h3.get ρ jx (fun i hi => by rw [hD i hi]; exact hρ i hi) hj).symm

/-- `aligned` where every new axis is repeated. -/
theorem aligned_code {x : Axial F} {as : List (A F)} {ss : List (List Nat)} (h : Code J yenv σ x as ss)
    {into : List Nat} {y : YExpr F} {repeats : Nat → Option (YExpr F)} (hne : as ≠ [])
    (hy : x.aligned into true repeats = some y) (hi : into.Nodup)
    (hrep : ∀ i e, repeats i = some e → EvalsInt J yenv e (σ i) ∧ RankOk J yenv e)
    (hcov : ∀ i ∈ into, i ∈ x.axes ∨ (repeats i).isSome) :
    (∀ i ∈ x.axes, i ∈ into) ∧ ∃ bs, Code J yenv σ ⟨into, y⟩ bs ss ∧
      ∀ ρ, (∀ i ∈ into, ρ i < σ i) → SameViews (views x.axes ρ as ss) (views into ρ bs ss) := by
  have hl : as.length = ss.length := h.shape.length_eq
  unfold Axial.aligned at hy
  simp only [Option.bind_eq_some_iff] at hy
  obtain ⟨k, hk, hy⟩ := hy
  have hk' : k = as.length := by
    unfold arityOf at hk
    simp only [Option.map_eq_some_iff] at hk
    obtain ⟨τ, hτ, rfl⟩ := hk
    have := congrArg List.length (h.rank _ _ hτ h.value)
    rw [pack_arrs] at this
    simpa using this.symm
  subst hk'
  have hsh : ∀ i (h1 : i < as.length) (h2 : i < ss.length), as[i].shape = x.axes.map σ ++ ss[i] := by
    have := h.shape
    rw [List.forall₂_iff_get] at this
    intro i h1 h2
    simpa using this.2 i h1 h2
  split at hy
  · rename_i h1
    obtain ⟨a, rfl⟩ := List.length_eq_one_iff.1 h1
    obtain ⟨s, rfl⟩ := List.length_eq_one_iff.1 (hl ▸ h1)
    obtain ⟨hsub, b, h2, h3, h4, h5⟩ := align_code h.value h.rank h.nodup (hsh 0 (by simp) (by simp)) hy hi hrep hcov
    exact ⟨hsub, [b], ⟨h2, h3, hi, .cons h4 .nil⟩, fun ρ hρ => .cons ⟨rfl, fun jx hj => h5 ρ jx hρ hj⟩ .nil⟩
  · rename_i h1
    have hpk : pack as = .tup as := by
      unfold pack
      split
      · simp at h1
      · rfl
    simp only [Option.map_eq_some_iff] at hy
    obtain ⟨ys, hys, rfl⟩ := hy
    have hyl : ys.length = as.length := by simpa using mapOpt_length hys
    have one : ∀ i, i < as.length → ∃ b, (∀ j ∈ x.axes, j ∈ into) ∧ (∃ y, ys[i]? = some y ∧
        Yarr.eval J y yenv = some (.arr b) ∧ RankOk J yenv y) ∧ (∃ s, ss[i]? = some s ∧ b.shape = into.map σ ++ s ∧
        ∃ a, as[i]? = some a ∧ ∀ ρ jx, (∀ i ∈ into, ρ i < σ i) → InRange s jx →
          a.get? (x.axes.map ρ ++ jx) = b.get? (into.map ρ ++ jx)) := by
      intro i hi'
      have hi2 : i < ss.length := by omega
      have hg := mapOpt_getElem? hys i
      rw [List.getElem?_eq_getElem (by omega : i < ys.length), List.getElem?_range hi', Option.bind_some] at hg
      obtain ⟨hsub, b, h2, h3, h4, h5⟩ := align_code (σ := σ) (J := J) (yenv := yenv) (a := as[i]) (s := ss[i]) (by
          rw [Yarr.eval_node]
          simp only [List.map_cons, List.map_nil, Yarr.den, h.value, Option.bind_some, hpk]
          rw [List.getElem?_eq_getElem hi']; rfl)
        (rankOk_node (by trivial) (by intro t ht; simp at ht; subst ht; exact h.rank)) h.nodup (hsh i hi' hi2)
        hg.symm hi hrep hcov
      exact ⟨b, hsub, ⟨_, List.getElem?_eq_getElem _, h2, h3⟩, _, List.getElem?_eq_getElem hi2, h4, _,
        List.getElem?_eq_getElem hi', h5⟩
    obtain ⟨bs, hb1, hb2⟩ := exists_list _ one
    have hpos : 0 < as.length := List.length_pos_iff.2 hne
    have hval : Yarr.eval J (node .tuple ys) yenv = some (.tup bs) := by
      refine eval_tuple ?_
      rw [List.forall₂_iff_get]
      refine ⟨by omega, fun i h2 h3 => ?_⟩
      obtain ⟨_, ⟨y, hy1, hy2, _⟩, _⟩ := hb2 i h3
      rw [List.getElem?_eq_getElem h2] at hy1
      cases hy1
      simpa using hy2
    refine ⟨(hb2 0 (by omega)).1, bs, ⟨?_, ?_, hi, ?_⟩, fun ρ hρ => ?_⟩
    · have : pack bs = .tup bs := by
        unfold pack
        split
        · simp at hb1; omega
        · rfl
      rw [this]; exact hval
    · refine rankOk_node (by trivial) fun t ht => ?_
      obtain ⟨i, hi', rfl⟩ := List.getElem_of_mem ht
      obtain ⟨_, ⟨y, hy1, _, hy2⟩, _⟩ := hb2 i (by omega)
      rw [List.getElem?_eq_getElem hi'] at hy1
      cases hy1
      exact hy2
    · rw [List.forall₂_iff_get]
      refine ⟨by omega, fun i h2 h3 => ?_⟩
      obtain ⟨_, _, s, hs1, hs2, _⟩ := hb2 i h2
      rw [List.getElem?_eq_getElem h3] at hs1
      cases hs1
      simpa using hs2
    · unfold SameViews
      rw [List.forall₂_iff_get]
      refine ⟨by rw [views_length, views_length]; omega, fun i h2 h3 => ?_⟩
      rw [views_length] at h2
      have hi1 : i < as.length := by omega
      have hi2 : i < ss.length := by omega
      have hi3 : i < bs.length := by omega
      obtain ⟨_, _, s, hs1, _, a, ha1, ha2⟩ := hb2 i hi3
      rw [List.getElem?_eq_getElem hi2] at hs1
      rw [List.getElem?_eq_getElem hi1] at ha1
      cases hs1; cases ha1
      simp only [views, List.get_eq_getElem, List.getElem_zipWith]
      exact ⟨trivial, fun jx hj => ha2 ρ jx hρ hj⟩

/-- An aligned operand holds the same values. -/
theorem Means.aligned {x : Axial F} {v : (Nat → Nat) → Option (D F)} (h : Means J yenv S σ x v)
    (hσ : Positive S σ) {into : List Nat} {y : YExpr F} {repeats : Nat → Option (YExpr F)}
    (hy : x.aligned into true repeats = some y) (hi : into.Nodup) (hS : ∀ i ∈ into, S i)
    (hrep : ∀ i e, repeats i = some e → EvalsInt J yenv e (σ i) ∧ RankOk J yenv e)
    (hcov : ∀ i ∈ into, i ∈ x.axes ∨ (repeats i).isSome) :
    (∀ i ∈ x.axes, i ∈ into) ∧ Means J yenv S σ ⟨into, y⟩ v := by
  obtain ⟨h0, as, ss, hc, hv⟩ := h
  have hne : as ≠ [] := by
    obtain ⟨w, _, h2⟩ := hv _ (valid_zero hσ)
    rintro rfl
    exact h2.ne_nil rfl
  obtain ⟨h1, bs, h2, h3⟩ := aligned_code hc hne hy hi hrep hcov
  refine ⟨h1, hS, bs, ss, h2, fun ρ hρ => ?_⟩
  obtain ⟨w, h4, h5⟩ := hv ρ hρ
  exact ⟨w, h4, h5.congr (h3 ρ fun i hi => hρ i (hS i hi))⟩

/-- A comprehension (`phi_to_yarr.py:250-257`): `v` is the value of the body at an assignment that also
gives the new index. -/
theorem means_along {x z : Axial F} {v : (Nat → Nat) → Option (D F)} {i m : Nat} {n : YExpr F}
    (h : Means J yenv (fun j => S j ∨ j = i) (upd σ i m) x v) (hm : 0 < m) (hn : EvalsInt J yenv n m) (hnr : RankOk J yenv n)
    (hz : x.along i n = some z) :
    Means J yenv S σ z fun ρ => (mapOpt (fun k : Nat => v (upd ρ i k)) (List.range m)).map .vec := by
  have hr : ∃ r, rankOf x.expr = some r := by
    unfold Axial.along at hz
    simp only [Option.bind_eq_some_iff] at hz
    obtain ⟨r, hr, _⟩ := hz
    exact ⟨r, hr⟩
  obtain ⟨r, hr⟩ := hr
  obtain ⟨a, s, ho, _⟩ := h.one hr
  have hui : upd σ i m i = m := by simp [upd]
  obtain ⟨hsp, hzr, b, hb1, hb2, hb3⟩ := along_eval hz ho.nodup ho.value ho.rank ho.shape
    (by rw [hui]; exact hn) hnr
  rw [hui] at hb2 hb3
  have hzS : ∀ j ∈ z.axes, S j := by
    intro j hj
    obtain ⟨h1, h2⟩ := (hsp.mem j).1 hj
    exact (ho.sub j h1).resolve_right h2
  have hσz : z.axes.map (upd σ i m) = z.axes.map σ := by
    refine List.map_congr_left fun j hj => ?_
    have : j ≠ i := fun e => hsp.notMem (e ▸ hj)
    simp [upd, this]
  refine One.means (a := b) (s := m :: s) ⟨hzS, hb1, hzr, hsp.nodup, by rw [hb2, hσz], fun ρ hρ => ?_⟩
  have hval : ∀ k < m, Valid (fun j => S j ∨ j = i) (upd σ i m) (upd ρ i k) := by
    intro k hk j hj
    unfold upd
    by_cases e : j = i
    · simp [e, hk]
    · simp [e]; exact hρ j (hj.resolve_right e)
  obtain ⟨vs, h1, h2⟩ := mapOpt_exists (f := fun k : Nat => v (upd ρ i k)) (l := List.range m)
    (P := fun k w => Reps s (fun jx => a.get? (x.axes.map (upd ρ i k) ++ jx)) w) (by
      intro k hk
      exact ho.reps _ (hval k (List.mem_range.1 hk)))
  refine ⟨.vec vs, by rw [h1]; rfl, hm, vs, rfl, by simpa using mapOpt_length h1, fun k w hw => ?_⟩
  rw [List.forall₂_iff_get] at h2
  obtain ⟨hk, rfl⟩ := List.getElem?_eq_some_iff.1 hw
  have hkm : k < m := by have := h2.1; simp at this; omega
  have := h2.2 k (by simpa using hkm) hk
  simp only [List.get_eq_getElem, List.getElem_range] at this
  refine this.congr fun jx hj => ?_
  have e := hb3 (upd ρ i k) jx (by
    intro j hj'
    exact hval k hkm j (Or.inl (hzS j hj'))) (by simp [upd, hkm]) hj
  have e1 : z.axes.map (upd ρ i k) = z.axes.map ρ := by
    refine List.map_congr_left fun j hj => ?_
    have : j ≠ i := fun e => hsp.notMem (e ▸ hj)
    simp [upd, this]
  rw [e1] at e
  simp only [upd, if_true] at e
  exact e.symm

end Verif.Codegen
