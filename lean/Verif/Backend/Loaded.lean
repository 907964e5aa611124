import Verif.Backend.InplaceSim
import Verif.Midend.Decide

/-!
The memory in which array code starts on the NumPy backend: the arrays the caller passes, and the constants of the code.
-/

namespace Verif.Backend
open Verif.Term Verif.Phi Verif.Arr Verif.Yarr Verif.Midend
variable {F : Type}

/-- The arrays of a value. -/
def buffers : YVal F → List (A F)
  | .arr a => [a]
  | .tup as => as

/-- References to whole buffers, from address `k` on. -/
def wholes : Nat → List (A F) → List Ref
  | _, [] => []
  | k, a :: as => ⟨k, a.shape, fun ix => ix⟩ :: wholes (k + 1) as

/-- The array objects of a value whose buffers start at address `k`. -/
def wholeAt (k : Nat) : YVal F → HVal
  | .arr a => .arr ⟨k, a.shape, fun ix => ix⟩
  | .tup as => .tup (wholes k as)

/-- The constants of array code. -/
def constsOf (e : YExpr F) : List (YVal F) := (occurrences e).filterMap fun u =>
  match u.head with
  | .const v _ => some v
  | _ => none

/-- Where a constant is, if the constants are stored one after another from address `k` on. -/
def constAt [DecidableEq F] : Nat → List (YVal F) → YVal F → HVal
  | _, [], _ => .tup []
  | k, y :: ys, v => if y = v then wholeAt k y else constAt (k + (buffers y).length) ys v

/-- The arrays `ins` are passed to the code `e`. -/
def loaded (ins : List (A F)) (e : YExpr F) : Mem F := ins ++ (constsOf e).flatMap buffers

/-- The array objects: constants are in memory, and `numpy.einsum` and external functions return new arrays. -/
def loader [DecidableEq F] (copies : Ref → Mem F → Bool) (n : Nat) (e : YExpr F) : Machine F where
  const v := constAt n (constsOf e) v
  copies := copies
  other _ _ _ := none

/-- The variables refer to the arrays that are passed (`functions.py:50`). -/
def passed : List (Nat × A F) → Nat → Env HVal
  | [], _, _ => none
  | (x, a) :: l, k, s => if Sym.var x = s then some (.arr ⟨k, a.shape, fun ix => ix⟩) else passed l (k + 1) s

/-- The same, as values. -/
def passedValues (l : List (Nat × A F)) : Env (YVal F) := fun s =>
  (l.find? fun q => Sym.var q.1 = s).map fun q => .arr q.2

/-- A reference to a whole buffer shows it. -/
theorem shows_whole {H : Mem F} {k : Nat} {a : A F} (h : H[k]? = some a) : Shows H ⟨k, a.shape, fun ix => ix⟩ a := by
  simp only [Shows, Ref.read, h, Option.bind_some]
  rw [NArr.ofFn?_eq_some]
  exact ⟨rfl, fun ix hix => ⟨rfl, NArr.get?_isSome.2 hix⟩⟩

theorem shows_wholes {H : Mem F} : ∀ (as : List (A F)) (k : Nat), (∀ j a, as[j]? = some a → H[k + j]? = some a) →
    List.Forall₂ (Shows H) (wholes k as) as
  | [], _, _ => .nil
  | a :: as, k, h => .cons (shows_whole (h 0 a rfl)) (shows_wholes as (k + 1) fun j b hb => by
      have := h (j + 1) b (by simpa using hb)
      rwa [show k + 1 + j = k + (j + 1) by omega])

theorem shows_wholeAt {H : Mem F} {k : Nat} {y : YVal F} (h : ∀ j a, (buffers y)[j]? = some a → H[k + j]? = some a) :
    ShowsV H (wholeAt k y) y := by
  cases y with
  | arr a => exact showsV_arr.2 ⟨a, rfl, shows_whole (h 0 a rfl)⟩
  | tup as => exact showsV_tup.2 ⟨as, rfl, shows_wholes as k h⟩

theorem shows_constAt [DecidableEq F] {H : Mem F} {v : YVal F} : ∀ (ys : List (YVal F)) (k : Nat), v ∈ ys →
    (∀ j a, (ys.flatMap buffers)[j]? = some a → H[k + j]? = some a) → ShowsV H (constAt k ys v) v
  | y :: ys, k, hv, h => by
    rw [constAt]
    split
    · rename_i he
      subst he
      refine shows_wholeAt fun j a hj => h j a ?_
      rw [List.flatMap_cons, List.getElem?_append_left (List.getElem?_eq_some_iff.1 hj).1]
      exact hj
    · rename_i he
      refine shows_constAt ys _ (by simpa [Ne.symm he] using hv) fun j a hj => ?_
      have := h ((buffers y).length + j) a (by
        rw [List.flatMap_cons, List.getElem?_append_right (by omega), show (buffers y).length + j - (buffers y).length = j by omega]
        exact hj)
      rwa [show k + (buffers y).length + j = k + ((buffers y).length + j) by omega]

/-- The constants are in memory. -/
theorem consts_loaded [DecidableEq F] (copies : Ref → Mem F → Bool) (ins : List (A F)) (e : YExpr F) :
    ConstsShown (loader copies ins.length e) e (loaded ins e) := by
  intro v τ ts ho
  refine shows_constAt _ _ (List.mem_filterMap.2 ⟨_, mem_occurrences.2 ho, rfl⟩) fun j a hj => ?_
  rw [loaded, List.getElem?_append_right (by omega), show ins.length + j - ins.length = j by omega]
  exact hj

theorem shows_passed {H : Mem F} : ∀ (l : List (Nat × A F)) (k : Nat), (∀ j a, (l.map Prod.snd)[j]? = some a → H[k + j]? = some a) →
    EnvShows H (passed l k) (passedValues l)
  | [], _, _, _ => trivial
  | (x, a) :: l, k, h, s => by
    have ih := shows_passed l (k + 1) (fun j b hj => by
      have := h (j + 1) b (by simpa using hj)
      rwa [show k + 1 + j = k + (j + 1) by omega]) s
    simp only [passed, passedValues, List.find?_cons]
    by_cases hs : Sym.var x = s
    · simp only [hs, if_true, decide_true, Option.map_some]
      exact showsV_arr.2 ⟨a, rfl, shows_whole (h 0 a rfl)⟩
    · simp only [hs, if_false, decide_false]
      exact ih

/-- The arguments are in memory. -/
theorem passed_loaded (l : List (Nat × A F)) (e : YExpr F) :
    EnvShows (loaded (l.map Prod.snd) e) (passed l 0) (passedValues l) :=
  shows_passed l 0 fun j a hj => by
    rw [loaded, Nat.zero_add, List.getElem?_append_left (List.getElem?_eq_some_iff.1 hj).1]
    exact hj

theorem lawful_loader [DecidableEq F] [FloatOps F] (copies : Ref → Mem F → Bool) (n : Nat) (e : YExpr F) (J : YExt F) :
    (loader copies n e).Lawful J := by
  intro h vs H ys y v _ _ _ hv; cases hv

end Verif.Backend
