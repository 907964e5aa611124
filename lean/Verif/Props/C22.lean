import Verif.Toy
import Verif.Codegen.Tuples

/-!
# C22: aligning operands that depend on different indices

The compiler represents a value that depends on indices `axes = [i₁, …, iₖ]` by an array whose first `k`
axes belong to these indices (`ein/codegen/axial.py`). Here `σ i` is the size of index `i`, an assignment
of the indices is a function `ρ`, and the element at an assignment and a further position `jx` is found at
`axes.map ρ ++ jx`.
-/

namespace Verif.Props
open Verif.Term Verif.Phi Verif.Arr Verif.Yarr Verif.Codegen
variable {F : Type} [FloatOps F]

/-- `e` evaluates to the array `a`, which has the rank of its type and whose leading axes belong to the
indices `axes`, the others having lengths `s`. -/
structure Holds (J : YExt F) (env : Env (YVal F)) (e : YExpr F) (a : A F) (axes : List Nat) (σ : Nat → Nat)
    (s : List Nat) : Prop where
  type : ∃ k, Yarr.typeOf e = some [⟨axes.length + s.length, k⟩]
  value : Yarr.eval J e env = some (.arr a)
  nodup : axes.Nodup
  shape : a.shape = axes.map σ ++ s

/-- `e` evaluates to the number `n`, as its type says. -/
structure HoldsSize (J : YExt F) (env : Env (YVal F)) (e : YExpr F) (n : Nat) : Prop where
  type : ∃ k, Yarr.typeOf e = some [⟨0, k⟩]
  value : Yarr.eval J e env = some (.arr (.scalar (.i n)))

/-- Reading with NumPy's broadcasting: positions are matched with the axes from the right, and an axis of
length 1 is read at 0. -/
def readBroadcast {α : Type} (b : NArr α) (ix : List Nat) : Option α :=
  b.get? (List.zipWith (fun d i => if d = 1 then 0 else i) b.shape (ix.drop (ix.length - b.shape.length)))

theorem zipWith_clamp_self {s jx : List Nat} (hj : InRange s jx) :
    List.zipWith (fun d i => if d = 1 then 0 else i) s jx = jx := by
  induction s generalizing jx with
  | nil => rw [inRange_nil] at hj; subst hj; rfl
  | cons n s ih =>
    cases jx with
    | nil => rfl
    | cons i jx =>
      rw [inRange_cons] at hj
      rw [List.zipWith_cons_cons, ih hj.2]
      congr 1
      split <;> omega

theorem Holds.rankOk {J : YExt F} {env : Env (YVal F)} {e : YExpr F} {a : A F} {axes : List Nat} {σ : Nat → Nat}
    {s : List Nat} (h : Holds J env e a axes σ s) : RankOk J env e := by
  intro τ x ht hx
  obtain ⟨k, hk⟩ := h.type
  rw [hk] at ht
  rw [h.value] at hx
  cases ht; cases hx
  rw [valRank_arr]
  unfold NArr.rank
  rw [h.shape]
  simp

theorem HoldsSize.rankOk {J : YExt F} {env : Env (YVal F)} {e : YExpr F} {n : Nat} (h : HoldsSize J env e n) :
    RankOk J env e := by
  intro τ x ht hx
  obtain ⟨k, hk⟩ := h.type
  rw [hk] at ht
  rw [h.value] at hx
  cases ht; cases hx
  exact valRank_arr.2 rfl

theorem align_isSome {J : YExt F} {env : Env (YVal F)} {e : YExpr F} {a : A F} {axes into : List Nat}
    {σ : Nat → Nat} {s : List Nat} (h : Holds J env e a axes σ s) (hsub : ∀ x ∈ axes, x ∈ into)
    (leftpad : Bool) (repeats : Nat → Option (YExpr F)) :
    ∃ y, align e axes into leftpad repeats = some y := by
  obtain ⟨k, hk⟩ := h.type
  unfold align rankOf
  rw [hk]
  simp only [single, Option.map_some, Option.bind_some]
  rw [if_pos ⟨(List.Nodup.subperm h.nodup hsub).length_le, hsub⟩]
  exact ⟨_, rfl⟩

/-- C22, one operand: aligning succeeds whenever the target includes all indices of the operand (in any
order), and reading the aligned operand at any assignment of the indices gives exactly the element the
operand had there. An index that the operand lacks gives an axis of the full length if repeats were
requested for it, of length 1 otherwise. -/
theorem C22_aligned (J : YExt F) (env : Env (YVal F)) (e : YExpr F) (a : A F) (axes into : List Nat)
    (σ : Nat → Nat) (s : List Nat) (leftpad : Bool) (repeats : Nat → Option (YExpr F))
    (he : Holds J env e a axes σ s) (hi : into.Nodup) (hsub : ∀ x ∈ axes, x ∈ into)
    (hrep : ∀ x n, repeats x = some n → HoldsSize J env n (σ x)) :
    ∃ y b, align e axes into leftpad repeats = some y ∧ Yarr.eval J y env = some (.arr b) ∧
      (leftpad = true → b.shape =
        into.map (fun x => if x ∈ axes ∨ (repeats x).isSome then σ x else 1) ++ s) ∧
      ∀ (ρ : Nat → Nat) (jx : List Nat), (∀ x ∈ into, ρ x < σ x) → InRange s jx →
        readBroadcast b (into.map ρ ++ jx) = a.get? (axes.map ρ ++ jx) := by
  obtain ⟨y, hy⟩ := align_isSome he hsub leftpad repeats
  obtain ⟨b, hb, _, hp⟩ := align_eval hy he.value he.rankOk he.nodup hi he.shape
    (fun x n h => ⟨(hrep x n h).value, (hrep x n h).rankOk⟩)
  refine ⟨y, b, hy, hb, ?_, ?_⟩
  · rintro rfl
    exact hp.shape
  · intro ρ jx hρ hj
    generalize ht : alignedAxes axes into leftpad = t at hp
    generalize hD : (fun x => if x ∈ axes ∨ (repeats x).isSome then σ x else 1) = D at hp
    have hsuf : t <:+ into := by
      rw [← ht]; unfold alignedAxes
      split
      · exact List.suffix_refl _
      · exact trimmed_suffix axes into
    have e1 : (into.map ρ ++ jx).drop ((into.map ρ ++ jx).length - b.shape.length) = t.map ρ ++ jx := by
      rw [hp.shape]
      obtain ⟨p, rfl⟩ := hsuf
      have hjl := hj.length
      rw [List.map_append, List.append_assoc, List.drop_left' (by simp; omega)]
    have e2 := zipWith_clamp_self hj
    unfold readBroadcast
    rw [e1, hp.shape, List.zipWith_append (by simp), zipWith_map_same, e2]
    have g := hp.get (fun x => if D x = 1 then 0 else ρ x) jx (by
      intro x hx
      have h1 := hρ x (hsuf.subset hx)
      by_cases hd : D x = 1
      · simp [hd]
      · simp only [hd, if_false]
        have : D x = σ x := by
          simp only [← hD] at hd ⊢
          split
          · rfl
          · rename_i hc; rw [if_neg hc] at hd; exact absurd rfl hd
        omega) hj
    rw [g]
    congr 2
    refine List.map_congr_left fun x hx => ?_
    have h1 := hρ x (hsub x hx)
    have h2 : D x = σ x := by simp only [← hD]; rw [if_pos (Or.inl hx)]
    split <;> omega

/-- C22, the axes chosen for several operands: every index of an operand, each once. -/
theorem C22_alignment (args : List (List Nat)) :
    (alignment args).Nodup ∧ ∀ x, x ∈ alignment args ↔ ∃ axes ∈ args, x ∈ axes :=
  ⟨nodup_alignment args, fun _ => mem_alignment⟩

/-- C22, several operands: an elementwise operation on operands aligned to their common axes gives, at
every assignment of the indices, the operation applied to the elements the operands had there. -/
theorem C22_elementwise (J : YExt F) (env : Env (YVal F)) (o : ScalarOp) (σ : Nat → Nat)
    (ops : List (Axial F × A F)) (hops : ∀ x ∈ ops, Holds J env x.1.expr x.2 x.1.axes σ [])
    (hdef : ∀ ρ : Nat → Nat, (∀ i ∈ alignment (ops.map fun x => x.1.axes), ρ i < σ i) →
      ((mapOpt (fun x : Axial F × A F => x.2.get? (x.1.axes.map ρ)) ops).bind (applyOp o)).isSome) :
    ∃ ys c, mapOpt (fun x : Axial F × A F => align x.1.expr x.1.axes (alignment (ops.map fun x => x.1.axes))
        false noRepeats) ops = some ys ∧
      Yarr.eval J (node (.elem o none) ys) env = some (.arr c) ∧
      c.shape = (alignment (ops.map fun x => x.1.axes)).map σ ∧
      ∀ ρ : Nat → Nat, (∀ i ∈ alignment (ops.map fun x => x.1.axes), ρ i < σ i) →
        c.get? ((alignment (ops.map fun x => x.1.axes)).map ρ) =
          (mapOpt (fun x : Axial F × A F => x.2.get? (x.1.axes.map ρ)) ops).bind (applyOp o) := by
  set into := alignment (ops.map fun x => x.1.axes) with hinto
  have hi : into.Nodup := nodup_alignment _
  have hsub : ∀ x ∈ ops, ∀ i ∈ x.1.axes, i ∈ into := fun x hx i h =>
    mem_alignment.2 ⟨x.1.axes, List.mem_map.2 ⟨x, hx, rfl⟩, h⟩
  have hone : ∀ x ∈ ops, ∃ y b, align x.1.expr x.1.axes into false noRepeats = some y ∧
      Yarr.eval J y env = some (.arr b) ∧ Spread x.2 b x.1.axes into σ := by
    intro x hx
    have h := hops x hx
    obtain ⟨y, hy⟩ := align_isSome h (hsub x hx) false noRepeats
    obtain ⟨b, hb, _, hp⟩ := align_eval hy h.value h.rankOk h.nodup hi h.shape
      (by intro x n h; cases h)
    refine ⟨y, b, hy, hb, ?_⟩
    refine Placed.spread (leftpad := false) ?_ (hsub x hx)
    simpa [noRepeats] using hp
  have : Nonempty (YExpr F) := ⟨node .tuple []⟩
  have : Nonempty (A F) := ⟨.scalar (.i 0)⟩
  choose! yf bf hyf hbf hsp using hone
  have hys : mapOpt (fun x : Axial F × A F => align x.1.expr x.1.axes into false noRepeats) ops =
      some (ops.map yf) := by
    clear hdef hops
    have : ∀ l : List (Axial F × A F), (∀ x ∈ l, x ∈ ops) →
        mapOpt (fun x : Axial F × A F => align x.1.expr x.1.axes into false noRepeats) l = some (l.map yf) := by
      intro l
      induction l with
      | nil => intro _; rfl
      | cons x l ih =>
        intro hl
        simp [mapOpt, hyf x (hl x (by simp)), ih (fun z hz => hl z (by simp [hz]))]
    exact this ops fun _ h => h
  obtain ⟨c, hc, hcs, hcg⟩ := zipAll_spread (f := applyOp o) hi
    (ops := ops.map fun x => (x.1.axes, x.2, bf x)) (σ := σ) (by
      intro q hq
      obtain ⟨x, hx, rfl⟩ := List.mem_map.1 hq
      exact hsp x hx) (by
      intro i hi'
      obtain ⟨axes, ha, hia⟩ := mem_alignment.1 hi'
      obtain ⟨x, hx, rfl⟩ := List.mem_map.1 ha
      exact ⟨_, List.mem_map.2 ⟨x, hx, rfl⟩, hia⟩) (by
      intro ρ hρ
      rw [mapOpt_map]
      exact hdef ρ hρ)
  refine ⟨ops.map yf, c, hys, ?_, hcs, ?_⟩
  · have harr : arrsOf ((ops.map yf).map fun y => Yarr.eval J y env) = some (ops.map bf) := by
      unfold arrsOf
      have : ∀ l : List (Axial F × A F), (∀ x ∈ l, x ∈ ops) →
          mapOpt (fun v : Option (YVal F) => v.bind YVal.asArr) ((l.map yf).map fun y => Yarr.eval J y env) =
            some (l.map bf) := by
        intro l
        induction l with
        | nil => intro _; rfl
        | cons x l ih =>
          intro hl
          simp [mapOpt, hbf x (hl x (by simp)), YVal.asArr]
          have := ih (fun z hz => hl z (by simp [hz]))
          rw [List.map_map] at this
          rw [this]; rfl
      exact this ops fun _ h => h
    rw [Yarr.eval_node]
    simp only [Yarr.den]
    have e : ((ops.map yf).map (Yarr.eval J)).map (· env) = (ops.map yf).map fun y => Yarr.eval J y env := by simp
    rw [e, harr]
    simp only [Option.bind_some]
    rw [List.map_map] at hc
    have : (ops.map bf) = ops.map ((fun o : List Nat × A F × A F => o.2.2) ∘ fun x => (x.1.axes, x.2, bf x)) := rfl
    rw [this, hc]
    rfl
  · intro ρ hρ
    rw [hcg ρ hρ, mapOpt_map]

/-- C22, turning an index into an array axis: the array over index `i` of values that may or may not
depend on `i` has, at position `ρ i` of the new axis, the value's element at the assignment `ρ`; the
remaining indices are those of the value except `i`. -/
theorem C22_along (J : YExt F) (env : Env (YVal F)) (x z : Axial F) (a : A F) (index : Nat) (size : YExpr F)
    (σ : Nat → Nat) (s : List Nat) (hx : Holds J env x.expr a x.axes σ s)
    (hsize : HoldsSize J env size (σ index)) (hz : x.along index size = some z) :
    (z.axes.Nodup ∧ ∀ i, i ∈ z.axes ↔ i ∈ x.axes ∧ i ≠ index) ∧
    ∃ b, Yarr.eval J z.expr env = some (.arr b) ∧ b.shape = z.axes.map σ ++ σ index :: s ∧
      ∀ (ρ : Nat → Nat) (jx : List Nat), (∀ i ∈ z.axes, ρ i < σ i) → ρ index < σ index → InRange s jx →
        b.get? (z.axes.map ρ ++ ρ index :: jx) = a.get? (x.axes.map ρ ++ jx) := by
  obtain ⟨h1, _, h2⟩ := along_eval hz hx.nodup hx.value hx.rankOk hx.shape hsize.value hsize.rankOk
  exact ⟨⟨h1.nodup, h1.mem⟩, h2⟩

/-- C22: `along` never fails on a well-typed value. -/
theorem C22_along_total (J : YExt F) (env : Env (YVal F)) (x : Axial F) (a : A F) (index : Nat) (size : YExpr F)
    (σ : Nat → Nat) (s : List Nat) (hx : Holds J env x.expr a x.axes σ s)
    (hsize : HoldsSize J env size (σ index)) : ∃ z, x.along index size = some z := by
  obtain ⟨k, hk⟩ := hx.type
  obtain ⟨k', hk'⟩ := hsize.type
  unfold Axial.along rankOf
  rw [hk]
  simp only [single, Option.map_some, Option.bind_some]
  rw [if_pos (by omega)]
  split
  · rename_i hmem
    obtain ⟨front, hsw, hperm⟩ := swapAt_last hx.nodup hmem
    have hlt := List.idxOf_lt_length_of_mem hmem
    have hpi : swapAt (List.range (x.axes.length + s.length)) (x.axes.idxOf index) (x.axes.length - 1) 0 =
        axisPerm x.axes (front ++ [index]) s.length := by
      rw [range_axes hx.nodup, swapAt_map (x.axes.idxOf ·) x.axes _ hlt (by omega) 0 0, hsw]
      rfl
    have hfl : front.length = x.axes.length - 1 := by have := hperm.length_eq; simp at this; omega
    rw [hpi]
    have htake : (axisPerm x.axes (front ++ [index]) s.length).take (x.axes.length - 1) =
        front.map (x.axes.idxOf ·) := by
      unfold axisPerm
      rw [List.map_append, List.append_assoc, List.take_left' (by simpa using hfl)]
    rw [htake, map_getD_idxOf (fun y hy => hperm.mem_iff.1 (by simp [hy]))]
    unfold Axial.mk?
    rw [Yarr.typeOf_node]
    simp only [List.map_cons, List.map_nil, hk, Yarr.typeStep]
    have hnd : (front ++ [index]).Nodup := hperm.nodup_iff.2 hx.nodup
    have hll : (axisPerm x.axes (front ++ [index]) s.length).length = x.axes.length + s.length := by
      unfold axisPerm; simp; omega
    rw [if_pos hll]
    simp only [List.mem_singleton, forall_eq]
    rw [if_pos ⟨(List.nodup_append.1 hnd).1, by omega⟩]
    exact ⟨_, rfl⟩
  · unfold Axial.mk?
    simp only [Yarr.typeOf_node, List.map_cons, List.map_nil, hk, hk', Yarr.typeStep, List.nodup_singleton, if_true,
      deltaTy, mapOpt, deltaArr]
    rw [if_pos (by simp; omega)]
    simp only [Option.bind_some]
    rw [if_pos (by simp; omega)]
    simp only [List.mem_singleton, forall_eq]
    rw [if_pos ⟨hx.nodup, by simp; omega⟩]
    exact ⟨_, rfl⟩

/-- C22: the permutations of axes that aligning and `along` apply are permutations. -/
theorem C22_permutations (axes into : List Nat) (k : Nat) (hn : axes.Nodup) :
    ((sortAxes axes into).map (axes.idxOf ·) ++ (List.range k).map (axes.length + ·)).Perm
      (List.range (axes.length + k)) ∧
    ∀ index ∈ axes, (swapAt (List.range (axes.length + k)) (axes.idxOf index) (axes.length - 1) 0).Perm
      (List.range (axes.length + k)) := by
  have key : ∀ axes', axes'.Perm axes → (axisPerm axes axes' k).Perm (List.range (axes.length + k)) := by
    intro axes' h
    rw [range_axes hn]
    exact (h.map _).append_right _
  refine ⟨key _ (List.perm_insertionSort _ _), fun index hmem => ?_⟩
  obtain ⟨front, hsw, hperm⟩ := swapAt_last hn hmem
  have hlt := List.idxOf_lt_length_of_mem hmem
  have : swapAt (List.range (axes.length + k)) (axes.idxOf index) (axes.length - 1) 0 =
      axisPerm axes (front ++ [index]) k := by
    rw [range_axes hn, swapAt_map (axes.idxOf ·) axes _ hlt (by omega) 0 0, hsw]
    rfl
  rw [this]
  exact key _ hperm

/-- `e` evaluates to arrays `as` (one, or a tuple of several), of the ranks of its type, whose leading axes
belong to the indices `axes`, the others having lengths `ss`. -/
structure HoldsAll (J : YExt F) (env : Env (YVal F)) (e : YExpr F) (as : List (A F)) (axes : List Nat)
    (σ : Nat → Nat) (ss : List (List Nat)) : Prop where
  type : ∃ τ, Yarr.typeOf e = some τ ∧ τ.map Phi.Arr.rank = ss.map fun s => axes.length + s.length
  value : Yarr.eval J e env = some (pack as)
  nodup : axes.Nodup
  shape : List.Forall₂ (fun (a : A F) s => a.shape = axes.map σ ++ s) as ss

/-- At every assignment of the indices `into`, the aligned arrays have the elements that the arrays over
the indices `axes` had. -/
def SameElements (σ : Nat → Nat) (axes into : List Nat) (p : A F × List Nat) (b : A F) : Prop :=
  ∀ (ρ : Nat → Nat) (jx : List Nat), (∀ i ∈ into, ρ i < σ i) → InRange p.2 jx →
    readBroadcast b (into.map ρ ++ jx) = p.1.get? (axes.map ρ ++ jx)

theorem HoldsAll.rankOk {J : YExt F} {env : Env (YVal F)} {e : YExpr F} {as : List (A F)} {axes : List Nat}
    {σ : Nat → Nat} {ss : List (List Nat)} (h : HoldsAll J env e as axes σ ss) : RankOk J env e := by
  intro τ x ht hx
  obtain ⟨τ', h1, h2⟩ := h.type
  rw [h1] at ht
  rw [h.value] at hx
  cases ht; cases hx
  unfold ValRank
  rw [h2, pack_arrs]
  have := h.shape
  clear h h2
  induction this with
  | nil => rfl
  | cons hs _ ih => simp [NArr.rank, hs, ih]

/-- Aligning a tuple aligns its parts. -/
theorem aligned_spec {J : YExt F} {env : Env (YVal F)} {x : Axial F} {as : List (A F)} {into : List Nat}
    {σ : Nat → Nat} {ss : List (List Nat)} (h : HoldsAll J env x.expr as x.axes σ ss) (hi : into.Nodup)
    (hsub : ∀ i ∈ x.axes, i ∈ into) :
    ∃ y bs, x.aligned into = some y ∧ Yarr.eval J y env = some (pack bs) ∧ RankOk J env y ∧
      List.Forall₂ (SameElements σ x.axes into) (as.zip ss) bs := by
  obtain ⟨τ, hτ, hτr⟩ := h.type
  have hls : as.length = ss.length := h.shape.length_eq
  have hl : τ.length = as.length := by
    have := congrArg List.length hτr
    simp at this; omega
  have one : ∀ (e : YExpr F) (i : Nat) (a : A F) (s : List Nat), as[i]? = some a → ss[i]? = some s →
      (∃ k, Yarr.typeOf e = some [⟨x.axes.length + s.length, k⟩]) → Yarr.eval J e env = some (.arr a) →
      ∃ y, align e x.axes into true noRepeats = some y ∧ RankOk J env y ∧
        ∃ b, Yarr.eval J y env = some (.arr b) ∧ SameElements σ x.axes into (a, s) b := by
    intro e i a s ha hs ht he
    have hh : Holds J env e a x.axes σ s := ⟨ht, he, h.nodup, by
      have := h.shape
      rw [List.forall₂_iff_get] at this
      have h1 := (List.getElem?_eq_some_iff.1 ha)
      have h2 := (List.getElem?_eq_some_iff.1 hs)
      have := this.2 i h1.1 h2.1
      simpa [h1.2, h2.2] using this⟩
    obtain ⟨y, b, h1, h2, _, h4⟩ := C22_aligned J env e a x.axes into σ s true noRepeats hh hi hsub
      (by intro x n h; cases h)
    refine ⟨y, h1, (align_eval h1 hh.value hh.rankOk hh.nodup hi hh.shape
      (by intro x n h; cases h)).choose_spec.2.1, b, h2, ?_⟩
    exact fun ρ jx hρ hj => h4 ρ jx hρ hj
  unfold Axial.aligned arityOf
  rw [hτ]
  simp only [Option.map_some, Option.bind_some, hl]
  by_cases h1 : as.length = 1
  · rw [if_pos h1]
    rcases as with _ | ⟨a, _ | ⟨b, as⟩⟩
    · simp at h1
    · rcases ss with _ | ⟨s, _ | ⟨t, ss⟩⟩
      · simp at hls
      · rcases τ with _ | ⟨t, _ | ⟨u, τ⟩⟩
        · simp at hl
        · simp only [List.map_cons, List.map_nil, List.cons.injEq, and_true] at hτr
          obtain ⟨y, hy, hyr, b, hb, hs⟩ := one x.expr 0 a s rfl rfl ⟨t.kind, by rw [hτ, ← hτr]⟩ h.value
          exact ⟨y, [b], hy, hb, hyr, .cons hs .nil⟩
        · simp at hl
      · simp at hls
    · simp at h1
  · rw [if_neg h1]
    have hpk : pack as = .tup as := by
      unfold pack
      split
      · simp at h1
      · rfl
    obtain ⟨ys, hys, hf⟩ := mapOpt_exists (l := List.range as.length)
      (f := fun i => align (node (.untuple i as.length) [x.expr]) x.axes into true noRepeats)
      (P := fun i y => RankOk J env y ∧ ∃ b, Yarr.eval J y env = some (.arr b) ∧
        ∀ a s, as[i]? = some a → ss[i]? = some s → SameElements σ x.axes into (a, s) b) (by
        intro i hi'
        simp only [List.mem_range] at hi'
        have hi2 : i < ss.length := by omega
        have hi3 : i < τ.length := by omega
        obtain ⟨y, h2, h3, b, h4, h5⟩ := one (node (.untuple i as.length) [x.expr]) i as[i] ss[i]
          (List.getElem?_eq_getElem hi') (List.getElem?_eq_getElem hi2)
          ⟨(τ[i]).kind, by
            rw [Yarr.typeOf_node]
            simp only [List.map_cons, List.map_nil, hτ, Yarr.typeStep, hl, if_true]
            rw [List.getElem?_eq_getElem hi3]
            have : (τ.map Phi.Arr.rank)[i]? = (ss.map fun s => x.axes.length + s.length)[i]? := by rw [hτr]
            rw [List.getElem?_map, List.getElem?_map, List.getElem?_eq_getElem hi3, List.getElem?_eq_getElem hi2] at this
            simp only [Option.map_some, Option.some.injEq] at this
            simp [← this]⟩
          (by
            rw [Yarr.eval_node]
            simp only [List.map_cons, List.map_nil, Yarr.den, h.value, Option.bind_some, hpk]
            rw [List.getElem?_eq_getElem hi']; rfl)
        refine ⟨y, h2, h3, b, h4, fun a s ha hs => ?_⟩
        rw [List.getElem?_eq_getElem hi'] at ha
        rw [List.getElem?_eq_getElem hi2] at hs
        cases ha; cases hs
        exact h5)
    rw [hys]
    have hlen : ys.length = as.length := by have := hf.length_eq; simpa using this.symm
    rw [List.forall₂_iff_get] at hf
    have hbs : ∃ bs : List (A F), List.Forall₂ (fun y b => Yarr.eval J y env = some (.arr b)) ys bs ∧
        List.Forall₂ (SameElements σ x.axes into) (as.zip ss) bs := by
      have hch : ∀ i : Fin as.length, ∃ b, Yarr.eval J (ys[i.1]'(by omega)) env = some (.arr b) ∧
          SameElements σ x.axes into (as[i.1], ss[i.1]'(by omega)) b := by
        intro i
        obtain ⟨_, b, h2, h3⟩ := hf.2 i.1 (by simp) (by omega)
        refine ⟨b, by simpa using h2, h3 _ _ ?_ ?_⟩ <;> simp
      choose g hg1 hg2 using hch
      refine ⟨List.ofFn g, ?_, ?_⟩
      · rw [List.forall₂_iff_get]
        refine ⟨by simpa using hlen, fun i h2 h3 => ?_⟩
        have := hg1 ⟨i, by simpa using h3⟩
        simpa using this
      · rw [List.forall₂_iff_get]
        refine ⟨by simp [hls], fun i h2 h3 => ?_⟩
        have := hg2 ⟨i, by simpa using h3⟩
        simpa using this
    obtain ⟨bs, h2, h3⟩ := hbs
    refine ⟨_, bs, rfl, ?_, rankOk_node (by trivial) ?_, h3⟩
    · rw [eval_tuple h2]
      have hlb : bs.length ≠ 1 := by rw [← h2.length_eq, hlen]; exact h1
      unfold pack
      split
      · simp at hlb
      · rfl
    · intro y hy
      obtain ⟨i, hi', rfl⟩ := List.getElem_of_mem hy
      have := (hf.2 i (by simp; omega) hi').1
      simpa using this

/-- C22, pairs: the components of a pair (each one array or a tuple of arrays), laid out along the common
axes, still give their elements at every assignment. -/
theorem C22_pair (J : YExt F) (env : Env (YVal F)) (x y z : Axial F) (as bs : List (A F)) (σ : Nat → Nat)
    (ss ts : List (List Nat)) (hx : HoldsAll J env x.expr as x.axes σ ss)
    (hy : HoldsAll J env y.expr bs y.axes σ ts) (hz : x.cons y = some z) :
    z.axes = alignment [x.axes, y.axes] ∧
    ∃ cs ds, Yarr.eval J z.expr env = some (pack (cs ++ ds)) ∧
      List.Forall₂ (SameElements σ x.axes z.axes) (as.zip ss) cs ∧
      List.Forall₂ (SameElements σ y.axes z.axes) (bs.zip ts) ds := by
  have hi : (alignment [x.axes, y.axes]).Nodup := nodup_alignment _
  obtain ⟨ex, cs, hex, hc, hrc, hsc⟩ := aligned_spec hx hi (fun i h => mem_alignment.2 ⟨x.axes, by simp, h⟩)
  obtain ⟨ey, ds, hey, hd, hrd, hsd⟩ := aligned_spec hy hi (fun i h => mem_alignment.2 ⟨y.axes, by simp, h⟩)
  have hlc : cs.length = as.length := by
    have := hsc.length_eq; have := hx.shape.length_eq; simp at *; omega
  have hld : ds.length = bs.length := by
    have := hsd.length_eq; have := hy.shape.length_eq; simp at *; omega
  obtain ⟨τx, hτx, hτxr⟩ := hx.type
  obtain ⟨τy, hτy, hτyr⟩ := hy.type
  have hlx : τx.length = as.length := by
    have := congrArg List.length hτxr; have := hx.shape.length_eq; simp at *; omega
  have hly : τy.length = bs.length := by
    have := congrArg List.length hτyr; have := hy.shape.length_eq; simp at *; omega
  unfold Axial.cons at hz
  simp only [arityOf, hτx, hτy, Option.map_some, Option.bind_some, hex, hey, hlx, hly] at hz
  cases hm1 : mapOpt (untupleMaybe ex) (List.range as.length) with
  | none => rw [hm1] at hz; cases hz
  | some es =>
  cases hm2 : mapOpt (untupleMaybe ey) (List.range bs.length) with
  | none => rw [hm1, hm2] at hz; cases hz
  | some es' =>
    rw [hm1, hm2] at hz
    simp only [Option.bind_some] at hz
    obtain ⟨rfl, _, _⟩ := mk?_eq_some hz
    refine ⟨rfl, cs, ds, ?_, hsc, hsd⟩
    have typed : ∀ {e : YExpr F} {n : Nat} {us : List (YExpr F)}, mapOpt (untupleMaybe e) (List.range n) = some us →
        n ≠ 0 → ∃ τ, Yarr.typeOf e = some τ := by
      intro e n us h hn
      cases n with
      | zero => exact absurd rfl hn
      | succ n =>
        rw [List.range_succ_eq_map] at h
        simp only [mapOpt, untupleMaybe, arityOf] at h
        cases ht : Yarr.typeOf e with
        | none => rw [ht] at h; cases h
        | some τ => exact ⟨τ, rfl⟩
    have side : ∀ {e : YExpr F} {n : Nat} {us : List (YExpr F)} {vs : List (A F)},
        mapOpt (untupleMaybe e) (List.range n) = some us → vs.length = n →
        Yarr.eval J e env = some (pack vs) → RankOk J env e →
        List.Forall₂ (fun e a => Yarr.eval J e env = some (.arr a)) us vs := by
      intro e n us vs h hn he hr
      by_cases h0 : n = 0
      · subst h0
        simp only [List.range_zero, mapOpt, Option.some.injEq] at h
        subst h
        have := List.length_eq_zero_iff.1 hn
        subst this
        exact .nil
      · obtain ⟨τ, hτ⟩ := typed h h0
        obtain ⟨us', h1, h2, _⟩ := untupleMaybe_spec hτ he hr
        rw [hn, h] at h1
        cases h1
        exact h2
    exact eval_tupleMaybe (List.rel_append (side hm1 hlc hc hrc) (side hm2 hld hd hrd))

/-! ### A concrete case -/

/-- A 2 by 3 array over indices 7 and 4 (in this order) whose elements have length 2. -/
def c22Input : A Int := ⟨[2, 3, 2], (List.range 12).map fun (n : Nat) => Scal.i n, rfl⟩

/-- Sizes: index 7 has size 2, index 4 has size 3, index 5 has size 4. -/
def c22Size (i : Nat) : Nat := if i = 7 then 2 else if i = 4 then 3 else 4

def c22Code : YExpr Int := node (.const (.arr c22Input) [⟨3, .int⟩]) []

def c22Four : YExpr Int := node (.const (.arr (.scalar (.i 4))) [⟨0, .int⟩]) []

/-- Non-vacuity: the hypotheses of `C22_aligned` hold when the operand is transposed, given a new axis in
the middle, and that axis is repeated. -/
example : Holds (fun _ _ => none) (fun _ => none) c22Code c22Input [7, 4] c22Size [2] ∧
    HoldsSize (fun _ _ => none) (fun _ => none) c22Four (c22Size 5) ∧
    (∀ x ∈ [7, 4], x ∈ [4, 5, 7]) ∧
    ((align c22Code [7, 4] [4, 5, 7] true (fun i => if i = 5 then some c22Four else none)).bind
      (fun y => Yarr.eval (fun _ _ => none) y (fun _ => none))).map (fun v => v.arrs.map NArr.shape) =
        some [[3, 4, 2, 2]] := by
  refine ⟨⟨⟨.int, by decide +kernel⟩, by decide +kernel, by decide, by decide +kernel⟩,
    ⟨⟨.int, by decide +kernel⟩, by decide +kernel⟩, by decide, by decide +kernel⟩

/-- Non-vacuity of `C22_along`, with an index the value depends on and one it does not. -/
example : (∃ z, (⟨[7, 4], c22Code⟩ : Axial Int).along 7 c22Four = some z ∧ z.axes = [4]) ∧
    (∃ z, (⟨[7, 4], c22Code⟩ : Axial Int).along 5 c22Four = some z ∧ z.axes = [7, 4]) := by
  exact ⟨Toy.exists_of_any (by decide +kernel), Toy.exists_of_any (by decide +kernel)⟩

/-- Non-vacuity of `C22_elementwise`: `x[i] + y[j]` with different indices. -/
example :
    let x : A Int := ⟨[2], [.i 1, .i 2], rfl⟩
    let y : A Int := ⟨[3], [.i 10, .i 20, .i 30], rfl⟩
    let ops : List (Axial Int × A Int) :=
      [(⟨[7], node (.const (.arr x) [⟨1, .int⟩]) []⟩, x), (⟨[4], node (.const (.arr y) [⟨1, .int⟩]) []⟩, y)]
    (∀ x ∈ ops, Holds (fun _ _ => none) (fun _ => none) x.1.expr x.2 x.1.axes c22Size []) ∧
    alignment (ops.map fun x => x.1.axes) = [7, 4] ∧
    ∀ p ∈ Arr.indices [2, 3], ((mapOpt (fun x : Axial Int × A Int => x.2.get? (x.1.axes.map
      (fun i => p.getD (if i = 7 then 0 else 1) 0))) ops).bind (applyOp .add)).isSome := by
  refine ⟨?_, by decide, by decide +kernel⟩
  intro x hx
  simp only [List.mem_cons, List.not_mem_nil, or_false] at hx
  rcases hx with rfl | rfl
  · exact ⟨⟨.int, by decide +kernel⟩, by decide +kernel, by decide, by decide +kernel⟩
  · exact ⟨⟨.int, by decide +kernel⟩, by decide +kernel, by decide, by decide +kernel⟩

/-- Non-vacuity of `C22_pair`: a pair of a value over index 7 and one over index 4. -/
example :
    let x : A Int := ⟨[2], [.i 1, .i 2], rfl⟩
    let y : A Int := ⟨[3, 1], [.i 10, .i 20, .i 30], rfl⟩
    let ex : Axial Int := ⟨[7], node (.const (.arr x) [⟨1, .int⟩]) []⟩
    let ey : Axial Int := ⟨[4], node (.const (.arr y) [⟨2, .int⟩]) []⟩
    HoldsAll (fun _ _ => none) (fun _ => none) ex.expr [x] ex.axes c22Size [[]] ∧
    HoldsAll (fun _ _ => none) (fun _ => none) ey.expr [y] ey.axes c22Size [[1]] ∧
    ∃ z, ex.cons ey = some z ∧ (Yarr.eval (fun _ _ => none) z.expr (fun _ => none)).map
      (fun v => v.arrs.map NArr.shape) = some [[2, 1], [1, 3, 1]] := by
  refine ⟨⟨⟨_, rfl, rfl⟩, by decide +kernel, by decide, .cons rfl .nil⟩,
    ⟨⟨_, rfl, rfl⟩, by decide +kernel, by decide, .cons rfl .nil⟩, Toy.exists_of_any (by decide +kernel)⟩

end Verif.Props
