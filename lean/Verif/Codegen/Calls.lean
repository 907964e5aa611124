import Verif.Codegen.External

/-!
Calls of external functions on arrays. Both the reference interpreter (`naive.py:82-83`) and the array backends
(`array_backend.py:252-254`) call the same function, the former on the arrays of single values, the latter on arrays with
the axes of indices in front.
-/

set_option linter.unusedSectionVars false

namespace Verif.Codegen
open Verif.Phi Verif.Term Verif.Yarr Verif.Arr

section
variable {V : Type}

/-- The rank of the array that represents a value. -/
def rankOfVal : Val V → Option Nat
  | .sc _ => some 0
  | .vec (v :: _) => (rankOfVal v).map (· + 1)
  | .vec [] => none
  | .pair _ _ => none

/-- The array that represents a value. Values with empty vectors, ragged ones and pairs have none. -/
def arrOf (v : Val V) : Option (NArr V) :=
  (rankOfVal v).bind fun n => if rect (valShape n v) v then NArr.ofFn? (valShape n v) (readAt · v) else none

/-- The nested value of elements at the positions of a shape. -/
def valueOf : List Nat → (List Nat → Option V) → Option (Val V)
  | [], f => (f []).map .sc
  | n :: s, f => (mapOpt (fun i => valueOf s fun jx => f (i :: jx)) (List.range n)).map .vec

/-- A function on arrays, applied to values (`naive.py:82-83`). -/
def onValues (g : List (NArr V) → Option (NArr V)) (vs : List (Val V)) : Option (Val V) :=
  (mapOpt arrOf vs).bind fun as => (g as).bind fun a => valueOf a.shape a.get?

/-- The function works for every position of leading axes separately: applied to operands with leading axes, which are
broadcast to `L`, it computes at position `ix` of `L` what it computes for the parts `cs ix` of the operands there. -/
def WorksAlong (g : List (NArr V) → Option (NArr V)) : Prop :=
  ∀ (ps : List (Operand V)) (L : List Nat) (cs : List Nat → List (NArr V)) (r : List Nat → NArr V), Stack ps L →
    (∀ ix, InRange L ix → List.Forall₂ (fun p (c : NArr V) => c.shape = p.core ∧
      ∀ jx, InRange p.core jx → c.get? jx = p.part ix jx) ps (cs ix)) →
    (∀ ix, InRange L ix → g (cs ix) = some (r ix)) →
    ∃ b s, g (ps.map Operand.arr) = some b ∧ b.shape = L ++ s ∧
      ∀ ix, InRange L ix → (r ix).shape = s ∧ ∀ jx, InRange s jx → b.get? (ix ++ jx) = (r ix).get? jx

/-! ### Values and arrays -/

theorem Reps.facts {s : List Nat} {f : List Nat → Option V} {v : Val V} (h : Reps s f v) :
    rankOfVal v = some s.length ∧ valShape s.length v = s ∧ rect s v = true ∧
      ∀ jx, InRange s jx → readAt jx v = f jx ∧ (f jx).isSome := by
  induction s generalizing f v with
  | nil =>
    obtain ⟨x, rfl, hx⟩ := h
    refine ⟨rfl, rfl, rfl, fun jx hj => ?_⟩
    rw [inRange_nil] at hj
    subst hj
    exact ⟨hx.symm, by rw [hx]; rfl⟩
  | cons n s ih =>
    obtain ⟨h0, vs, rfl, h2, h3⟩ := h
    cases vs with
    | nil => simp at h2; omega
    | cons w vs =>
      obtain ⟨e1, e2, e3, e4⟩ := ih (h3 0 w rfl)
      refine ⟨by rw [rankOfVal, e1]; rfl, ?_, ?_, ?_⟩
      · rw [List.length_cons, valShape, e2, ← h2, List.length_cons]
      · simp only [rect, Bool.and_eq_true, decide_eq_true_eq, List.all_eq_true]
        refine ⟨h2, fun u hu => ?_⟩
        obtain ⟨i, hi⟩ := List.mem_iff_getElem?.1 hu
        exact (ih (h3 i u hi)).2.2.1
      · intro jx hj
        cases jx with
        | nil => simp at hj
        | cons i jx =>
          rw [inRange_cons] at hj
          have hi : (w :: vs)[i]? = some ((w :: vs)[i]'(by omega)) := List.getElem?_eq_getElem _
          rw [readAt, hi, Option.bind_some]
          exact (ih (h3 i _ hi)).2.2.2 jx hj.2

/-- The array of a represented value. -/
theorem Reps.arrOf {s : List Nat} {f : List Nat → Option V} {v : Val V} (h : Reps s f v) :
    ∃ c, Codegen.arrOf v = some c ∧ c.shape = s ∧ ∀ jx, InRange s jx → c.get? jx = f jx := by
  obtain ⟨e1, e2, e3, e4⟩ := h.facts
  obtain ⟨c, hc, hcs, hcg⟩ := NArr.ofFn?_spec (s := s) (f := fun jx => readAt jx v) fun jx hj => by
    rw [(e4 jx hj).1]; exact (e4 jx hj).2
  refine ⟨c, ?_, hcs, fun jx hj => by rw [hcg jx hj, (e4 jx hj).1]⟩
  simp only [Codegen.arrOf, e1, Option.bind_some, e2, e3, if_true]
  exact hc

/-- A value that is represented by some array is represented by the one that it was made from. -/
theorem Reps.valueOf {s t : List Nat} {f g : List Nat → Option V} {w : Val V} (h : Codegen.valueOf s f = some w)
    (hw : Reps t g w) : Reps s f w := by
  induction s generalizing t f g w with
  | nil =>
    simp only [Codegen.valueOf, Option.map_eq_some_iff] at h
    obtain ⟨x, hx, rfl⟩ := h
    exact ⟨x, rfl, hx⟩
  | cons n s ih =>
    simp only [Codegen.valueOf, Option.map_eq_some_iff] at h
    obtain ⟨vs, hvs, rfl⟩ := h
    obtain ⟨t', rfl⟩ := hw.vec
    obtain ⟨h0, us, hu, -, h3⟩ := hw
    cases hu
    have hl : vs.length = n := by simpa using mapOpt_length hvs
    refine ⟨hl ▸ h0, vs, rfl, hl, fun i w hi => ?_⟩
    refine ih ?_ (h3 i w hi)
    have := mapOpt_getElem? hvs i
    have hlt : i < n := hl ▸ (List.getElem?_eq_some_iff.1 hi).1
    rw [hi, List.getElem?_range hlt, Option.bind_some] at this
    exact this.symm

end

variable {F : Type}

/-- The functions, called by the array backends (`array_backend.py:252-254`). -/
def onArrays (g : Nat → List (A F) → Option (A F)) : YExt F := fun fn vs =>
  (mapOpt YVal.asArr vs).bind fun as => (g fn as).map .arr

/-- Functions that work along leading axes are vectorised. -/
theorem vectorises_of (g : Nat → List (A F) → Option (A F)) (hg : ∀ fn, WorksAlong (g fn)) :
    Vectorises (fun fn => onValues (g fn)) (onArrays g) := by
  unfold onArrays
  intro fn ps L hs h
  have core : ∀ ix, InRange L ix → ∃ (cs : List (A F)) (r : A F),
      List.Forall₂ (fun p (c : A F) => c.shape = p.core ∧ ∀ jx, InRange p.core jx → c.get? jx = p.part ix jx) ps cs ∧
      g fn cs = some r ∧ ∀ ws w, Row ps ix ws → onValues (g fn) ws = some w → Reps r.shape r.get? w := by
    intro ix hix
    obtain ⟨ws, w, s, f, h1, h2, h3⟩ := h ix hix
    have hcs : ∃ cs, mapOpt arrOf ws = some cs ∧
        List.Forall₂ (fun p (c : A F) => c.shape = p.core ∧ ∀ jx, InRange p.core jx → c.get? jx = p.part ix jx) ps cs := by
      have h1' : List.Forall₂ (fun p w => Reps p.core (p.part ix) w) ps ws := h1
      clear h2 h3 h1 h hs
      induction h1' with
      | nil => exact ⟨[], rfl, .nil⟩
      | cons h1 _ ih =>
        obtain ⟨cs, e1, e2⟩ := ih
        obtain ⟨c, e3, e4⟩ := h1.arrOf
        exact ⟨c :: cs, by simp only [mapOpt, e3, e1, Option.bind_some], .cons e4 e2⟩
    obtain ⟨cs, e1, e2⟩ := hcs
    have h2' := h2
    simp only [onValues, e1, Option.bind_some, Option.bind_eq_some_iff] at h2'
    obtain ⟨r, e3, e4⟩ := h2'
    refine ⟨cs, r, e2, e3, fun ws' w' hr hw' => ?_⟩
    have := hr.unique h1
    subst this
    have h2 : onValues (g fn) ws' = some w := h2
    rw [h2] at hw'
    cases hw'
    exact Reps.valueOf e4 h3
  haveI : Nonempty (A F) := ⟨⟨[0], [], rfl⟩⟩
  choose! cs r h1 h2 h3 using core
  obtain ⟨b, s, hb, hbs, hbr⟩ := hg fn ps L cs r hs h1 h2
  refine ⟨b, s, ?_, hbs, fun ix ws w hix hr hw => ?_⟩
  · have : mapOpt YVal.asArr (ps.map fun p => (YVal.arr p.arr : YVal F)) = some (ps.map Operand.arr) := by
      rw [mapOpt_map]
      clear hb hbr h3 h2 h1 h hs
      induction ps with
      | nil => rfl
      | cons p ps ih => rw [mapOpt, ih]; rfl
    simp only [this, Option.bind_some, hb, Option.map_some]
  · obtain ⟨e1, e2⟩ := hbr ix hix
    have := h3 ix hix ws w hr hw
    rw [e1] at this
    exact this.congr fun jx hj => (e2 jx hj).symm

/-! ### Elementwise functions -/

section
variable {V : Type}

theorem padLeft_append (r : Nat) (l s : List Nat) (h : l.length ≤ r) :
    NArr.padLeft (r + s.length) (l ++ s) = NArr.padLeft r l ++ s := by
  unfold NArr.padLeft
  rw [List.length_append, ← List.append_assoc]
  congr 3
  omega

/-- Broadcasting works for the leading axes and the others separately, if there are as many others. -/
theorem bcast_append {l l' s s' : List Nat} (h : s.length = s'.length) :
    NArr.bcast (l ++ s) (l' ++ s') = (NArr.bcast l l').bind fun u => (NArr.bcast s s').map (u ++ ·) := by
  unfold NArr.bcast
  have e : max (l ++ s).length (l' ++ s').length = max l.length l'.length + s.length := by
    simp only [List.length_append]; omega
  rw [e, padLeft_append _ _ _ (by omega)]
  rw [h, padLeft_append _ _ _ (by omega)]
  have p1 : NArr.padLeft (max s'.length s'.length) s = s := by
    simp [NArr.padLeft, h]
  have p2 : NArr.padLeft (max s'.length s'.length) s' = s' := by simp [NArr.padLeft]
  rw [p1, p2, List.zip_append (by simp only [NArr.padLeft, List.length_append, List.length_replicate]; omega), mapOpt_append]

theorem bcast_length {s t u : List Nat} (h : NArr.bcast s t = some u) (e : s.length = t.length) :
    u.length = t.length := by
  unfold NArr.bcast at h
  have := mapOpt_length h
  simp [NArr.padLeft, e] at this
  omega

theorem bcast_nil_left (t : List Nat) : NArr.bcast [] t = some t := by
  unfold NArr.bcast
  simp only [List.length_nil, Nat.zero_max, NArr.padLeft, Nat.sub_zero, List.append_nil, Nat.sub_self,
    List.replicate_zero, List.nil_append]
  induction t with
  | nil => rfl
  | cons d t ih =>
    simp only [List.length_cons, List.replicate_succ, List.zip_cons_cons, mapOpt, ih, Option.bind_some]
    unfold NArr.bcastDim
    split
    · rename_i e; subst e; rfl
    · rfl

theorem loop_append {ps : List (Operand V)} {r : Nat} (hr : ∀ p ∈ ps, p.core.length = r) :
    ∀ (u c : List Nat), c.length = r → loopOpt NArr.bcast (u ++ c) (ps.map fun p => p.loop ++ p.core) =
      (loopOpt NArr.bcast u (ps.map Operand.loop)).bind fun L =>
        (loopOpt NArr.bcast c (ps.map Operand.core)).map (L ++ ·) := by
  induction ps with
  | nil => intro u c _; simp [loopOpt]
  | cons p ps ih =>
    intro u c hc
    have hp := hr p (by simp)
    simp only [List.map_cons, loopOpt]
    rw [bcast_append (by omega)]
    cases hu : NArr.bcast u p.loop with
    | none => rfl
    | some u' =>
      simp only [Option.bind_some]
      cases hs : NArr.bcast c p.core with
      | none => cases loopOpt NArr.bcast u' (ps.map Operand.loop) <;> rfl
      | some c' =>
        simp only [Option.map_some, Option.bind_some]
        exact ih (fun q hq => hr q (by simp [hq])) u' c' (by rw [bcast_length hs (by omega)]; exact hp)

theorem bcastAll_append {ps : List (Operand V)} (he : ∃ r, ∀ p ∈ ps, p.core.length = r) :
    NArr.bcastAll (ps.map fun p => p.loop ++ p.core) = (NArr.bcastAll (ps.map Operand.loop)).bind fun L =>
      (NArr.bcastAll (ps.map Operand.core)).map (L ++ ·) := by
  obtain ⟨r, hr⟩ := he
  unfold NArr.bcastAll
  cases ps with
  | nil => rfl
  | cons p ps =>
    simp only [List.map_cons, loopOpt, bcast_nil_left, Option.bind_some]
    exact loop_append (fun q hq => hr q (by simp [hq])) _ _ (hr p (by simp))

theorem loop_core_length {r : Nat} : ∀ {ss : List (List Nat)} {c u : List Nat}, (∀ s ∈ ss, s.length = r) → c.length = r →
    loopOpt NArr.bcast c ss = some u → u.length = r := by
  intro ss
  induction ss with
  | nil => intro c u _ hc h; simp only [loopOpt, Option.some.injEq] at h; rw [← h]; exact hc
  | cons s ss ih =>
    intro c u hs hc h
    simp only [loopOpt, Option.bind_eq_some_iff] at h
    obtain ⟨c', h1, h2⟩ := h
    exact ih (fun t ht => hs t (by simp [ht])) (by rw [bcast_length h1 (by rw [hc, hs s (by simp)])]; exact hs s (by simp)) h2

theorem bcastAll_length {r : Nat} {ss : List (List Nat)} {u : List Nat} (hs : ∀ s ∈ ss, s.length = r)
    (h : NArr.bcastAll ss = some u) (hne : ss ≠ []) : u.length = r := by
  unfold NArr.bcastAll at h
  cases ss with
  | nil => exact absurd rfl hne
  | cons s ss =>
    simp only [loopOpt, bcast_nil_left, Option.bind_some] at h
    exact loop_core_length (fun t ht => hs t (by simp [ht])) (hs s (by simp)) h

theorem bcastIx_append {l s ix jx : List Nat} (h : s.length = jx.length) (hl : l.length ≤ ix.length) :
    NArr.bcastIx (l ++ s) (ix ++ jx) = NArr.bcastIx l ix ++ NArr.bcastIx s jx := by
  unfold NArr.bcastIx
  have e : (ix ++ jx).length - (l ++ s).length = ix.length - l.length := by simp only [List.length_append]; omega
  rw [e, List.drop_append_of_le_length (by omega), List.zipWith_append (by rw [List.length_drop]; omega)]
  congr 2
  rw [h]
  simp

theorem bcast_length_le {s t u : List Nat} (h : NArr.bcast s t = some u) : s.length ≤ u.length ∧ t.length ≤ u.length := by
  unfold NArr.bcast at h
  have := mapOpt_length h
  simp only [NArr.padLeft, List.length_zip, List.length_append, List.length_replicate] at this
  omega

theorem loop_length_le {ss : List (List Nat)} : ∀ {c u : List Nat}, loopOpt NArr.bcast c ss = some u →
    c.length ≤ u.length ∧ ∀ s ∈ ss, s.length ≤ u.length := by
  induction ss with
  | nil => intro c u h; simp only [loopOpt, Option.some.injEq] at h; subst h; exact ⟨le_rfl, by simp⟩
  | cons s ss ih =>
    intro c u h
    simp only [loopOpt, Option.bind_eq_some_iff] at h
    obtain ⟨c', h1, h2⟩ := h
    obtain ⟨e1, e2⟩ := ih h2
    obtain ⟨e3, e4⟩ := bcast_length_le h1
    refine ⟨by omega, fun t ht => ?_⟩
    rcases List.mem_cons.1 ht with rfl | ht
    · omega
    · exact e2 t ht

/-- Elementwise functions, with NumPy's broadcasting, work along leading axes. -/
theorem worksAlong_zipAll (f : List V → Option V) : WorksAlong (NArr.zipAll f) := by
  intro ps L cs r hs hcs hr
  obtain ⟨ix0, hix0⟩ := exists_inRange hs.pos
  have shapes : ∀ ix, InRange L ix → (cs ix).map NArr.shape = ps.map Operand.core := by
    intro ix hix
    have := hcs ix hix
    generalize cs ix = c at this
    clear hr hcs hs
    induction this with
    | nil => rfl
    | cons h1 _ ih => simp only [List.map_cons, h1.1, ih]
  have zip : ∀ ix, InRange L ix → ∃ s, NArr.bcastAll (ps.map Operand.core) = some s ∧ (r ix).shape = s ∧
      ∀ jx, InRange s jx → (r ix).get? jx =
        (mapOpt (fun a : NArr V => a.get? (NArr.bcastIx a.shape jx)) (cs ix)).bind f ∧ ((r ix).get? jx).isSome := by
    intro ix hix
    have := hr ix hix
    unfold NArr.zipAll at this
    rw [shapes ix hix, Option.bind_eq_some_iff] at this
    obtain ⟨s, e1, e2⟩ := this
    obtain ⟨e3, e4⟩ := NArr.ofFn?_eq_some.1 e2
    exact ⟨s, e1, e3, fun jx hj => ⟨(e4 jx hj).1, by rw [(e4 jx hj).1]; exact (e4 jx hj).2⟩⟩
  obtain ⟨s, e1, e2, -⟩ := zip ix0 hix0
  have hb : NArr.bcastAll ((ps.map Operand.arr).map NArr.shape) = some (L ++ s) := by
    have : (ps.map Operand.arr).map NArr.shape = ps.map fun p => p.loop ++ p.core := by
      rw [List.map_map]
      exact List.map_congr_left fun p hp => hs.shape p hp
    rw [this, bcastAll_append hs.even, hs.loops, e1]
    rfl
  have hll : ∀ p ∈ ps, p.loop.length ≤ L.length := fun p hp =>
    (loop_length_le hs.loops).2 _ (List.mem_map.2 ⟨p, hp, rfl⟩)
  have hcl : ∀ p ∈ ps, p.core.length = s.length := by
    intro p hp
    obtain ⟨k, hk⟩ := hs.even
    rw [hk p hp, bcastAll_length (r := k) (fun t ht => ?_) e1 (by intro e; rw [List.map_eq_nil_iff] at e; subst e; cases hp)]
    obtain ⟨q, hq, rfl⟩ := List.mem_map.1 ht
    exact hk q hq
  have read : ∀ ix jx, InRange L ix → InRange s jx →
      (mapOpt (fun a : NArr V => a.get? (NArr.bcastIx a.shape (ix ++ jx))) (ps.map Operand.arr)).bind f =
        (r ix).get? jx ∧ ((r ix).get? jx).isSome := by
    intro ix jx hix hj
    obtain ⟨s', e1', e3, e4⟩ := zip ix hix
    rw [e1] at e1'
    cases e1'
    obtain ⟨e5, e6⟩ := e4 jx hj
    refine ⟨?_, e6⟩
    rw [e5] at e6 ⊢
    congr 1
    have hsome : (mapOpt (fun a : NArr V => a.get? (NArr.bcastIx a.shape jx)) (cs ix)).isSome := by
      cases hm : mapOpt (fun a : NArr V => a.get? (NArr.bcastIx a.shape jx)) (cs ix) with
      | none => rw [hm] at e6; cases e6
      | some _ => rfl
    rw [mapOpt_map]
    have hf := hcs ix hix
    generalize cs ix = c at hf hsome
    have hsh := hs.shape
    clear hb e1 e2 e3 e4 e5 e6 hcs zip shapes hr hs
    induction hf with
    | nil => rfl
    | @cons p c ps cs h1 _ ih =>
      cases hc : c.get? (NArr.bcastIx c.shape jx) with
      | none => simp only [mapOpt, hc, Option.bind_none] at hsome; cases hsome
      | some x =>
        have hin := NArr.inRange_of_get? hc
        have : p.arr.get? (NArr.bcastIx p.arr.shape (ix ++ jx)) = some x := by
          rw [hsh p (by simp), bcastIx_append (by rw [hcl p (by simp), hj.length])
            (by rw [← hix.length]; exact hll p (by simp))]
          rw [h1.1] at hin hc
          rw [← hc, h1.2 _ hin]
          rfl
        simp only [mapOpt, hc, this, Option.bind_some] at hsome ⊢
        rw [ih (fun q hq => hll q (by simp [hq])) (fun q hq => hcl q (by simp [hq])) ?_ (fun q hq => hsh q (by simp [hq]))]
        cases hm : mapOpt (fun a : NArr V => a.get? (NArr.bcastIx a.shape jx)) cs with
        | none => rw [hm] at hsome; cases hsome
        | some _ => rfl
  obtain ⟨b, h1, h2, h3⟩ := NArr.ofFn?_spec (s := L ++ s) (f := fun kx =>
      (mapOpt (fun a : NArr V => a.get? (NArr.bcastIx a.shape kx)) (ps.map Operand.arr)).bind f) (by
    intro kx hk
    obtain ⟨ix, jx, rfl, hix, hj⟩ := inRange_append_left.1 hk
    obtain ⟨e3, e4⟩ := read ix jx hix hj
    rw [e3]; exact e4)
  refine ⟨b, s, ?_, h2, fun ix hix => ⟨?_, fun jx hj => ?_⟩⟩
  · unfold NArr.zipAll
    rw [hb]
    exact h1
  · obtain ⟨s', e3, e4, -⟩ := zip ix hix
    rw [e1] at e3
    cases e3
    exact e4
  · rw [h3 _ ((inRange_append hix.length).2 ⟨hix, hj⟩)]
    exact (read ix jx hix hj).1

/-! ### Functions along the last axis -/

/-- A function applied along the last axis of an array, such as `numpy.sum(a, axis=-1)` or `numpy.sort(a, axis=-1)`. For a
row of length `n` the result has shape `t n`, and `h row jx` is its element at position `jx`. -/
def alongLast (t : Nat → List Nat) (h : List V → List Nat → Option V) : List (NArr V) → Option (NArr V)
  | [a] => (a.shape.getLast?).bind fun n => NArr.ofFn? (a.shape.dropLast ++ t n) fun ix =>
      (mapOpt (fun k => a.get? (ix.take (a.rank - 1) ++ [k])) (List.range n)).bind fun row => h row (ix.drop (a.rank - 1))
  | _ => none

theorem bcastIx_self {s ix : List Nat} (h : InRange s ix) : NArr.bcastIx s ix = ix := by
  unfold NArr.bcastIx
  rw [h.length, Nat.sub_self, List.drop_zero]
  induction s generalizing ix with
  | nil => rw [inRange_nil] at h; subst h; rfl
  | cons d s ih =>
    cases ix with
    | nil => simp at h
    | cons i ix =>
      rw [inRange_cons] at h
      rw [List.zipWith_cons_cons, ih h.2]
      congr 1
      split <;> omega

theorem alongLast_some {t : Nat → List Nat} {h : List V → List Nat → Option V} {a b : NArr V} {s : List Nat} {n : Nat}
    (hs : a.shape = s ++ [n]) : alongLast t h [a] = some b ↔ b.shape = s ++ t n ∧
      ∀ ix jx, InRange s ix → InRange (t n) jx →
        b.get? (ix ++ jx) = (mapOpt (fun k => a.get? (ix ++ [k])) (List.range n)).bind (h · jx) ∧
        (b.get? (ix ++ jx)).isSome := by
  have hr : a.rank - 1 = s.length := by simp [NArr.rank, hs]
  simp only [alongLast, hs, List.getLast?_append, List.getLast?_singleton, Option.some_or,
    Option.bind_some, List.dropLast_concat, hr]
  rw [NArr.ofFn?_eq_some]
  refine and_congr_right fun hb => ⟨fun H ix jx hi hj => ?_, fun H kx hk => ?_⟩
  · obtain ⟨e1, e2⟩ := H (ix ++ jx) ((inRange_append hi.length).2 ⟨hi, hj⟩)
    rw [List.take_left' hi.length.symm, List.drop_left' hi.length.symm] at e1 e2
    exact ⟨e1, by rw [e1]; exact e2⟩
  · obtain ⟨ix, jx, rfl, hi, hj⟩ := inRange_append_left.1 hk
    obtain ⟨e1, e2⟩ := H ix jx hi hj
    rw [List.take_left' hi.length.symm, List.drop_left' hi.length.symm]
    exact ⟨e1, by rw [← e1]; exact e2⟩

/-- Functions along the last axis work along leading axes. -/
theorem worksAlong_last (t : Nat → List Nat) (h : List V → List Nat → Option V) : WorksAlong (alongLast t h) := by
  intro ps L cs r hs hcs hr
  obtain ⟨ix0, hix0⟩ := exists_inRange hs.pos
  have hp : ∃ p, ps = [p] := by
    have h1 := hcs ix0 hix0
    have h2 := hr ix0 hix0
    generalize cs ix0 = c at h1 h2
    rcases c with _ | ⟨c, _ | ⟨c', c⟩⟩
    · cases h2
    · have := h1.length_eq
      exact List.length_eq_one_iff.1 this
    · cases h2
  obtain ⟨p, rfl⟩ := hp
  have one : ∀ ix, InRange L ix → ∃ c, cs ix = [c] ∧ c.shape = p.core ∧
      ∀ jx, InRange p.core jx → c.get? jx = p.part ix jx := by
    intro ix hix
    have h1 := hcs ix hix
    generalize cs ix = c at h1
    cases h1 with
    | cons h1 h2 => cases h2; exact ⟨_, rfl, h1⟩
  have hL : p.loop = L := by
    have := hs.loops
    simp only [List.map, NArr.bcastAll, loopOpt, bcast_nil_left, Option.bind_some, Option.some.injEq] at this
    exact this
  obtain ⟨s, n, hcore⟩ : ∃ s n, p.core = s ++ [n] := by
    obtain ⟨c, e1, e2, -⟩ := one ix0 hix0
    have h2 := hr ix0 hix0
    rw [e1] at h2
    cases hl : c.shape.getLast? with
    | none => simp [alongLast, hl] at h2
    | some n =>
      obtain ⟨s, hs'⟩ := List.getLast?_eq_some_iff.1 hl
      exact ⟨s, n, by rw [← e2, hs']⟩
  have hsh : p.arr.shape = (L ++ s) ++ [n] := by rw [hs.shape p (by simp), hL, hcore, List.append_assoc]
  have row : ∀ ix, InRange L ix → (r ix).shape = s ++ t n ∧ ∀ jx kx, InRange s jx → InRange (t n) kx →
      (r ix).get? (jx ++ kx) = (mapOpt (fun k => p.arr.get? ((ix ++ jx) ++ [k])) (List.range n)).bind (h · kx) ∧
      ((r ix).get? (jx ++ kx)).isSome := by
    intro ix hix
    obtain ⟨c, e1, e2, e3⟩ := one ix hix
    have h2 := hr ix hix
    rw [e1, alongLast_some (e2.trans hcore)] at h2
    refine ⟨h2.1, fun jx kx hj hk => ?_⟩
    obtain ⟨e4, e5⟩ := h2.2 jx kx hj hk
    refine ⟨?_, e5⟩
    rw [e4]
    congr 1
    refine mapOpt_congr fun k hk => ?_
    rw [e3 _ (by rw [hcore, inRange_append hj.length]; exact ⟨hj, by simpa using hk⟩)]
    unfold Operand.part
    rw [hL, bcastIx_self hix, List.append_assoc]
  obtain ⟨b, hb, hbs, hbg⟩ := NArr.ofFn?_spec (s := L ++ (s ++ t n)) (f := fun ix =>
    (r (ix.take L.length)).get? (ix.drop L.length)) (by
      intro ix hix
      obtain ⟨ix, kx, rfl, hi, hk⟩ := inRange_append_left.1 hix
      obtain ⟨jx, kx, rfl, hj, hk⟩ := inRange_append_left.1 hk
      rw [List.take_left' hi.length.symm, List.drop_left' hi.length.symm]
      exact ((row ix hi).2 jx kx hj hk).2)
  have get : ∀ ix kx, InRange L ix → InRange (s ++ t n) kx → b.get? (ix ++ kx) = (r ix).get? kx := by
    intro ix kx hi hk
    rw [hbg _ ((inRange_append hi.length).2 ⟨hi, hk⟩), List.take_left' hi.length.symm, List.drop_left' hi.length.symm]
  refine ⟨b, s ++ t n, ?_, hbs, fun ix hix => ⟨(row ix hix).1, fun kx hk => get ix kx hix hk⟩⟩
  rw [List.map, List.map, alongLast_some hsh]
  refine ⟨by rw [hbs, List.append_assoc], fun ij kx hij hk => ?_⟩
  obtain ⟨ix, jx, rfl, hi, hj⟩ := inRange_append_left.1 hij
  rw [List.append_assoc, get ix _ hi ((inRange_append hj.length).2 ⟨hj, hk⟩)]
  exact (row ix hi).2 jx kx hj hk

end
end Verif.Codegen
