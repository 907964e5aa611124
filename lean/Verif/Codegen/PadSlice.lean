import Verif.Yarr.Sem
import Verif.Array.Window

/-! Lowering of a clipped shift to a slice and a pad (`ein/codegen/array_indexing.py:24-155`). -/

namespace Verif.Codegen
open Verif.Phi Verif.Term Verif.Yarr Verif.Arr
variable {F : Type}

/-- `Builder.const` on an integer (`array_indexing.py:28-30`) -/
def yint (n : Int) : YExpr F := node (.const (.arr (.scalar (.i n))) [⟨0, .int⟩]) []

/-- `Builder.__add__`, `__sub__`, `min`, `max` (`array_indexing.py:37-63`) -/
def yop (o : ScalarOp) (a b : YExpr F) : YExpr F := node (.elem o none) [a, b]

/-- `_put_at` (`array_indexing.py:112-113`) as the mask of places that are not `None`. -/
def putMask (n p : Nat) : List Bool := NArr.putAt n p true false

/-- `start` (`array_indexing.py:142`) -/
def psStart (shift low high : YExpr F) : YExpr F := yop .min (yop .max shift low) high

/-- `stop` (`array_indexing.py:143`) -/
def psStop (shift low high size : YExpr F) : YExpr F :=
  yop .add (yop .min (yop .max (yop .subtract (yop .add shift size) (yint 1)) low) high) (yint 1)

/-- `left` (`array_indexing.py:144`) -/
def psLeft (shift low size : YExpr F) : YExpr F :=
  yop .min (yop .max (yop .subtract low shift) (yint 0)) (yop .subtract size (yint 1))

/-- `right` (`array_indexing.py:145`) -/
def psRight (shift low high size : YExpr F) : YExpr F :=
  yop .subtract (yop .subtract size (yop .subtract (psStop shift low high size) (psStart shift low high)))
    (psLeft shift low size)

/-- `pad_slice_get` (`array_indexing.py:116-155`); `none` where an assertion fails. -/
def padSliceGet (target : YExpr F) (axis : Nat) (shift low high size : YExpr F) : Option (YExpr F) :=
  match typeOf target with
  | some [⟨rank, _⟩] =>
    if axis < rank ∧ ∀ e ∈ [shift, low, high, size], typeOf e = some [⟨0, .int⟩] then
      some (node (.pad (putMask rank axis) (putMask rank axis))
        [node (.slice (putMask rank axis) (putMask rank axis))
          [target, psStart shift low high, psStop shift low high size],
          psLeft shift low size, psRight shift low high size])
    else none
  | _ => none

/-! ### Evaluation -/

/-- The code evaluates to an integer without dimensions. -/
def EvalsInt [FloatOps F] (J : YExt F) (env : Env (YVal F)) (e : YExpr F) (n : Int) : Prop :=
  eval J e env = some (.arr (.scalar (.i n)))

section
variable [FloatOps F] {J : YExt F} {env : Env (YVal F)}

theorem zipAll_scalar2 {α β : Type} (f : List α → Option β) (x y : α) :
    NArr.zipAll f [NArr.scalar x, NArr.scalar y] = (f [x, y]).map NArr.scalar := by
  have h : NArr.bcastAll ([NArr.scalar x, NArr.scalar y].map NArr.shape) = some [] := rfl
  unfold NArr.zipAll
  rw [h]
  simp only [Option.bind_some]
  have hg : ∀ ix : List Nat, InRange [] ix →
      ((mapOpt (fun a : NArr α => a.get? (NArr.bcastIx a.shape ix)) [NArr.scalar x, NArr.scalar y]).bind f)
        = f [x, y] := by
    intro ix hix
    rw [inRange_nil] at hix
    subst hix
    rfl
  cases hf : f [x, y] with
  | none =>
    cases h' : NArr.ofFn? [] (fun ix => (mapOpt (fun a : NArr α => a.get? (NArr.bcastIx a.shape ix))
      [NArr.scalar x, NArr.scalar y]).bind f) with
    | none => rfl
    | some b =>
      have := (NArr.ofFn?_eq_some.1 h').2 [] (by simp)
      rw [hg [] (by simp), hf] at this
      simp at this
  | some z =>
    refine NArr.ofFn?_eq_some.2 ⟨rfl, fun ix hix => ?_⟩
    rw [hg ix hix, hf]
    rw [inRange_nil] at hix
    subst hix
    exact ⟨rfl, rfl⟩

theorem evalsInt_const (n : Int) : EvalsInt J env (yint n : YExpr F) n := by
  unfold EvalsInt yint
  rw [eval_node]; rfl

theorem evalsInt_op {o : ScalarOp} {f : Int → Int → Int}
    (hf : ∀ x y, applyOp (F := F) o [.i x, .i y] = some (.i (f x y))) {a b : YExpr F} {x y : Int}
    (ha : EvalsInt J env a x) (hb : EvalsInt J env b y) : EvalsInt J env (yop o a b) (f x y) := by
  unfold EvalsInt at *
  rw [yop, eval_node]
  simp only [List.map_cons, List.map_nil, Yarr.den, ha, hb, arrsOf, mapOpt, Option.bind_some, YVal.asArr,
    zipAll_scalar2, hf, Option.map_some]

theorem evalsInt_add {a b : YExpr F} {x y : Int} (ha : EvalsInt J env a x) (hb : EvalsInt J env b y) :
    EvalsInt J env (yop .add a b) (x + y) := evalsInt_op (fun _ _ => rfl) ha hb

theorem evalsInt_sub {a b : YExpr F} {x y : Int} (ha : EvalsInt J env a x) (hb : EvalsInt J env b y) :
    EvalsInt J env (yop .subtract a b) (x - y) := evalsInt_op (fun _ _ => rfl) ha hb

theorem evalsInt_min {a b : YExpr F} {x y : Int} (ha : EvalsInt J env a x) (hb : EvalsInt J env b y) :
    EvalsInt J env (yop .min a b) (min x y) := evalsInt_op (fun _ _ => rfl) ha hb

theorem evalsInt_max {a b : YExpr F} {x y : Int} (ha : EvalsInt J env a x) (hb : EvalsInt J env b y) :
    EvalsInt J env (yop .max a b) (max x y) := evalsInt_op (fun _ _ => rfl) ha hb

theorem unmask_false {α : Type} (k : Nat) (l : List α) :
    unmask (List.replicate k false) l = some (List.replicate k none, l) := by
  induction k with
  | zero => rfl
  | succ k ih => simp [List.replicate_succ, unmask, ih]

theorem unmask_append {α : Type} (m₁ m₂ : List Bool) (l : List α) :
    unmask (m₁ ++ m₂) l = (unmask m₁ l).bind fun r => (unmask m₂ r.2).map fun r' => (r.1 ++ r'.1, r'.2) := by
  induction m₁ generalizing l with
  | nil => simp [unmask]
  | cons b m ih =>
    cases b with
    | false => simp [unmask, ih, Option.bind_assoc]; cases unmask m l <;> simp <;> cases unmask m₂ _ <;> rfl
    | true =>
      cases l with
      | nil => rfl
      | cons x l =>
        simp [unmask, ih, Option.bind_assoc]; cases unmask m l <;> simp <;> cases unmask m₂ _ <;> rfl

theorem unmask_putMask {α : Type} (n p : Nat) (x : α) (l : List α) :
    unmask (putMask n p) (x :: l) = some (NArr.putAt n p (some x) none, l) := by
  unfold putMask NArr.putAt
  rw [unmask_append, unmask_false]
  simp only [Option.bind_some, unmask, unmask_false, Option.map_some]

theorem asSize_scalar (n : Int) : asSize (NArr.scalar (.i n) : A F) = some n := rfl

theorem mapOpt_append {α β : Type} (f : α → Option β) (l m : List α) :
    mapOpt f (l ++ m) = (mapOpt f l).bind fun x => (mapOpt f m).map fun y => x ++ y := by
  induction l with
  | nil => simp [mapOpt]
  | cons a l ih =>
    simp only [List.cons_append, mapOpt, ih]
    cases f a <;> simp <;> cases mapOpt f l <;> simp <;> cases mapOpt f m <;> rfl

theorem mapOpt_replicate {α β : Type} {f : α → Option β} {x : α} {y : β} (h : f x = some y) (k : Nat) :
    mapOpt f (List.replicate k x) = some (List.replicate k y) := by
  induction k with
  | zero => rfl
  | succ k ih => simp [List.replicate_succ, mapOpt, h, ih]

theorem mapOpt_optSize_putAt (n p : Nat) (x : Int) :
    mapOpt optSize (NArr.putAt n p (some (NArr.scalar (.i x) : A F)) none) =
      some (NArr.putAt n p (some x) none) := by
  unfold NArr.putAt
  rw [mapOpt_append, mapOpt_replicate (f := optSize) (x := none) (y := none) rfl]
  simp only [Option.bind_some, mapOpt,
    mapOpt_replicate (f := optSize (F := F)) (x := none) (y := none) rfl]
  rfl

theorem sliceOf_putMask (a : A F) (n p : Nat) (s e : Int) :
    sliceOf (putMask n p) (putMask n p) a [NArr.scalar (.i s), NArr.scalar (.i e)] =
      a.slice (NArr.putAt n p (some s) none) (NArr.putAt n p (some e) none) := by
  unfold sliceOf
  simp only [unmask_putMask, Option.bind_some, if_true, mapOpt_optSize_putAt]

theorem padOf_putMask (a : A F) (n p : Nat) (l r : Int) :
    padOf (putMask n p) (putMask n p) a [NArr.scalar (.i l), NArr.scalar (.i r)] =
      a.pad (NArr.putAt n p (l, r) (0, 0)) := by
  unfold padOf
  simp only [unmask_putMask, Option.bind_some, if_true, mapOpt_optSize_putAt, NArr.zip_putAt]
  congr 1
  simp [NArr.putAt]

end

end Verif.Codegen
