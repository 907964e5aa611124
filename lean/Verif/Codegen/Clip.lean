import Verif.Phi.Sem

/-! Recognition of clipped shifts (`ein/codegen/array_indexing.py:180-262`). -/

namespace Verif.Codegen
open Verif.Phi Verif.Term
variable {F : Type}

/-- `ClippedShift` (`array_indexing.py:180`): shift, low, high. -/
abbrev Clip (F : Type) := Option (Expr F) × Option (Expr F) × Option (Expr F)

/-- `_clip_shift_add` (`array_indexing.py:227-237`); `t` is `match_clipped_shift(shifted, symbol)`. -/
def clipAdd (t : Option (Clip F)) (other : Expr F) : Option (Clip F) :=
  if freeIndices other ≠ ∅ then none
  else match t with
    | some (d, none, none) =>
      some (some (match d with | some d => op2 .add d other | none => other), none, none)
    | _ => none

/-- `_clip_shift_min` (`array_indexing.py:240-250`) -/
def clipMin (t : Option (Clip F)) (other : Expr F) : Option (Clip F) :=
  if freeIndices other ≠ ∅ then none
  else t.map fun (d, lo, hi) =>
    (d, lo, some (match hi with | some hi => op2 .min hi other | none => other))

/-- `_clip_shift_max` (`array_indexing.py:253-262`) -/
def clipMax (t : Option (Clip F)) (other : Expr F) : Option (Clip F) :=
  if freeIndices other ≠ ∅ then none
  else t.map fun (d, lo, hi) =>
    (d, some (match lo with | some lo => op2 .max lo other | none => other),
      hi.map fun hi => op2 .max hi other)

/-- `_first_opt` on two candidates (`array_indexing.py:17-21`) -/
def firstOpt (x y : Option (Clip F)) : Option (Clip F) := x.orElse fun _ => y

/-- The `match` of `match_clipped_shift` (`array_indexing.py:199-224`). For `Subtract` the code recurses
into the new node `Negate((second,))`, for which the result is that of a term without free symbols or
`None`. -/
def clipMatch (s : Sym) : Head F → List (Expr F × Option (Clip F)) → Option (Clip F)
  | .store s' _, _ => if s = s' then some (none, none, none) else none
  | .op .add, [a, b] => firstOpt (clipAdd a.2 b.1) (clipAdd b.2 a.1)
  | .op .subtract, [a, b] => firstOpt (clipAdd a.2 (op1 .negate b.1))
      (clipAdd (if fv (op1 .negate b.1) = ∅ then some (none, none, none) else none) a.1)
  | .op .min, [a, b] => firstOpt (clipMin a.2 b.1) (clipMin b.2 a.1)
  | .op .max, [a, b] => firstOpt (clipMax a.2 b.1) (clipMax b.2 a.1)
  | _, _ => none

/-- One node of `match_clipped_shift` (`array_indexing.py:194-224`). -/
def clipStep (s : Sym) (h : Head F) (ts : List (Expr F × Option (Clip F))) : Option (Clip F) :=
  if fv (node h (ts.map Prod.fst)) = ∅ then some (none, none, none) else clipMatch s h ts

/-- `match_clipped_shift(expr, symbol)` (`array_indexing.py:194-224`) -/
def matchClip (s : Sym) (e : Expr F) : Option (Clip F) := para (clipStep s) e

/-- All indices mentioned in an expression. -/
def indices : Expr F → List Nat :=
  cata fun h ls => (match h with | .store (.idx i) _ => [i] | _ => []) ++ ls.flatten

/-- The only free index, if there is exactly one (`array_indexing.py:185-186`). -/
def onlyIndex (e : Expr F) : Option Nat := (indices e).find? fun i => decide (freeIndices e = {.idx i})

/-- `match_index_clipped_shift` (`array_indexing.py:184-190`) -/
def matchIndexClip (e : Expr F) : Option (Nat × Clip F) :=
  (onlyIndex e).bind fun i => (matchClip (.idx i) e).map fun t => (i, t)

theorem mem_indices {i : Nat} {e : Expr F} (h : Sym.idx i ∈ fv e) : i ∈ indices e := by
  induction e using ind with
  | step hd ts ih =>
    unfold indices
    rw [cata_node, List.mem_append]
    obtain ⟨h | ⟨t, ht, h⟩, -⟩ := mem_fv.1 h
    · left
      change Head.symbol hd = some _ at h
      cases hd <;> simp_all [Head.symbol]
    · right
      rw [List.mem_flatten]
      exact ⟨indices t, List.mem_map.2 ⟨t, ht, rfl⟩, ih t ht h⟩

theorem onlyIndex_iff {e : Expr F} {i : Nat} : onlyIndex e = some i ↔ freeIndices e = {.idx i} := by
  constructor
  · intro h
    have := List.find?_some h
    simpa using this
  · intro h
    have hm : Sym.idx i ∈ fv e := by
      have : Sym.idx i ∈ freeIndices e := by rw [h]; simp
      exact (Finset.mem_filter.1 this).1
    have : ∃ x ∈ indices e, decide (freeIndices e = {Sym.idx x}) = true := ⟨i, mem_indices hm, by simp [h]⟩
    obtain ⟨j, hj⟩ := Option.isSome_iff_exists.1 (List.find?_isSome.2 this)
    rw [onlyIndex, hj]
    have := List.find?_some hj
    simp only [decide_eq_true_eq, h, Finset.singleton_inj, Sym.idx.injEq] at this
    rw [this]

end Verif.Codegen
