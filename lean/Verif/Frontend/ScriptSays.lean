import Verif.Frontend.ScriptAgree

/-! What programs of the user with sizes left out say: the size is the common size of the arrays that are read at the index. -/

set_option linter.unusedSectionVars false

namespace Verif.Frontend
open Verif.Phi Verif.Term Verif.Midend Verif.Codegen Verif.Props
variable {F : Type}

mutual
/-- All arrays from outside that are read at the local variable `j`, as in `x[j]` or `x[…][j]`, and the axes. Locals are
outside from `lo` on. There is no answer if `j` is used in another way than to read such arrays, or as an operand of scalar
operations. -/
def uses : Script F → Nat → Nat → Option (List (Place × Nat))
  | .loc n, _, j => if n = j then none else some []
  | .lit _, _, _ => some []
  | .assign a b, lo, j => (uses a lo j).bind fun l => (uses b (lo + 1) (j + 1)).map fun m => l ++ m
  | .un _ a, lo, j => if isLoc j a then some [] else uses a lo j
  | .bin _ a b, lo, j => (if isLoc j a then some [] else uses a lo j).bind fun l =>
      (if isLoc j b then some [] else uses b lo j).map fun m => l ++ m
  | .choose a b c, lo, j => (if isLoc j a then some [] else uses a lo j).bind fun l =>
      (if isLoc j b then some [] else uses b lo j).bind fun m => (if isLoc j c then some [] else uses c lo j).map fun n => l ++ (m ++ n)
  | .item x i, lo, j => (uses x lo j).bind fun l =>
      if isLoc j i then (placeOf lo x).map fun q => q :: l else (uses i lo j).map fun m => l ++ m
  | .size x _, lo, j => uses x lo j
  | .array n b, lo, j => (uses n lo j).bind fun l => (uses b (lo + 1) (j + 1)).map fun m => l ++ m
  | .fold n z b, lo, j => (uses n lo j).bind fun l => (uses z lo j).bind fun m => (uses b (lo + 2) (j + 2)).map fun k => l ++ (m ++ k)
  | .reduce x z b, lo, j => (uses x lo j).bind fun l => (uses z lo j).bind fun m => (uses b (lo + 2) (j + 2)).map fun k => l ++ (m ++ k)
  | .concat x y, lo, j => (uses x lo j).bind fun l => (uses y lo j).map fun m => l ++ m
  | .record _ fs, lo, j => usesFields fs lo j
  | .field x _, lo, j => uses x lo j
  | .part x _, lo, j => uses x lo j
  | .auto k b, lo, j => uses b (lo + (k + 1)) (j + (k + 1))
  | .autoFold z b, lo, j => (uses z lo j).bind fun m => (uses b (lo + 2) (j + 2)).map fun k => m ++ k
def usesFields : SFields F → Nat → Nat → Option (List (Place × Nat))
  | .nil, _, _ => some []
  | .cons _ a rest, lo, j => (uses a lo j).bind fun l => (usesFields rest lo j).map fun m => l ++ m
end

mutual
/-- The arrays that are read at an index in a body, where the index may also be the result or a component of it. -/
def usesIn : Script F → Nat → Nat → Option (List (Place × Nat))
  | .record _ fs, lo, j => usesInFields fs lo j
  | .assign a b, lo, j => (uses a lo j).bind fun l => (usesIn b (lo + 1) (j + 1)).map fun m => l ++ m
  | P, lo, j => if isLoc j P then some [] else uses P lo j
def usesInFields : SFields F → Nat → Nat → Option (List (Place × Nat))
  | .nil, _, _ => some []
  | .cons _ a rest, lo, j => (usesIn a lo j).bind fun l => (usesInFields rest lo j).map fun m => l ++ m
end

/-- The arrays that are read at the `k + 1` indices of a comprehension, for the outermost index first. -/
def usesAll (b : Script F) (k : Nat) : Option (List (List (Place × Nat))) :=
  Phi.mapOpt (fun m => usesIn b (k + 1) (k - m)) (List.range (k + 1))

/-- The common size of arrays, if it is the same for all of them, and there are elements. -/
def common (vs : List (PVal F)) (l : List (Place × Nat)) : Option Nat :=
  (Phi.mapOpt (fun q => (q.1.val vs).bind (extent q.2)) l).bind fun ns =>
    match ns with
    | [] => none
    | n :: ns => if 0 < n ∧ ∀ m ∈ ns, m = n then some n else none

/-- The array, with the given number of axes, of the values of `f`. -/
def table : List Nat → (List Nat → Option (PVal F)) → Option (PVal F)
  | [], f => f []
  | n :: ns, f => (Phi.mapOpt (fun k => table ns fun ks => f (k :: ks)) (List.range n)).bind rows

variable [FloatOps F]

mutual
/-- The value of a program, where sizes may be left out, if its local variables have the values `vs`. The size along an index
is the common size of all arrays that are read at the index. -/
def tells : Script F → List (PVal F) → Option (PVal F)
  | .loc n, vs => vs[n]?
  | .lit s, _ => some (.sc s)
  | .assign a b, vs => (tells a vs).bind fun v => tells b (v :: vs)
  | .un o a, vs => ((tells a vs).bind toScal).bind fun x => (applyOp o [x]).map .sc
  | .bin o a b, vs => ((tells a vs).bind toScal).bind fun x => ((tells b vs).bind toScal).bind fun y => (applyPy o x y).map .sc
  | .choose c t f, vs => ((tells c vs).bind toScal).bind fun b => ((tells t vs).bind toScal).bind fun x =>
      ((tells f vs).bind toScal).bind fun y => (applyOp .where_ [b, x, y]).map .sc
  | .item x i, vs => ((tells x vs).bind toList).bind fun l => ((tells i vs).bind toInt).bind fun k => elementAt l k
  | .size x k, vs => ((tells x vs).bind (extent k)).map fun n : Nat => .sc (.i (n : Int))
  | .array n b, vs => ((tells n vs).bind toInt).bind fun n =>
      (Phi.mapOpt (fun k : Nat => tells b (.sc (.i k) :: vs)) (List.range n.toNat)).bind rows
  | .fold n z b, vs => ((tells n vs).bind toInt).bind fun n => (tells z vs).bind fun v =>
      loopOpt (fun v (k : Nat) => tells b (.sc (.i k) :: v :: vs)) v (List.range n.toNat)
  | .reduce x z b, vs => ((tells x vs).bind toList).bind fun l => (tells z vs).bind fun v =>
      loopOpt (fun v y => tells b (v :: y :: vs)) v l
  | .concat x y, vs => ((tells x vs).bind toList).bind fun l => ((tells y vs).bind toList).bind fun m => rows (l ++ m)
  | .record k fs, vs => (tellsFields fs vs).map (.record k)
  | .field x n, vs => (tells x vs).bind (fieldOf n)
  | .part x i, vs => (tells x vs).bind (partOf i)
  | .auto k b, vs => (usesAll b k).bind fun ls => (Phi.mapOpt (common vs) ls).bind fun ns =>
      table ns fun ks => tells b ((ks.map fun k : Nat => PVal.sc (.i (k : Int))).reverse ++ vs)
  | .autoFold z b, vs => (usesIn b 2 0).bind fun l => (common vs l).bind fun n => (tells z vs).bind fun v =>
      loopOpt (fun v (k : Nat) => tells b (.sc (.i k) :: v :: vs)) v (List.range n)
def tellsFields : SFields F → List (PVal F) → Option (List (String × PVal F))
  | .nil, _ => some []
  | .cons n a rest, vs => (tells a vs).bind fun v => (tellsFields rest vs).map fun l => (n, v) :: l
end

mutual
/-- Wherever a size is left out, the arrays that are read at the index do not depend on an index, and the index is used in no
other way but in scalar operations and as a component of the result. The contexts are those of `deps`. -/
def settled : Script F → Nat → List (List Nat) → Bool
  | .loc _, _, _ => true
  | .lit _, _, _ => true
  | .assign a b, d, ds => settled a d ds && (deps a d ds).any fun x => settled b d (x :: ds)
  | .un _ a, d, ds => settled a d ds
  | .bin _ a b, d, ds => settled a d ds && settled b d ds
  | .choose a b c, d, ds => settled a d ds && (settled b d ds && settled c d ds)
  | .item a b, d, ds => settled a d ds && settled b d ds
  | .size a _, d, ds => settled a d ds
  | .array n b, d, ds => settled n d ds && settled b (d + 1) ([d] :: ds)
  | .fold n z b, d, ds => settled n d ds && (settled z d ds && settled b d ([] :: [] :: ds))
  | .reduce a z b, d, ds => settled a d ds && (settled z d ds && settled b d ([] :: [] :: ds))
  | .concat a b, d, ds => settled a d ds && settled b d ds
  | .record _ fs, d, ds => settledFields fs d ds
  | .field a _, d, ds => settled a d ds
  | .part a _, d, ds => settled a d ds
  | .auto k b, d, ds => (usesAll b k).any (fun ls => ls.all fun l => l.all fun q => decide (ds[q.1.loc]? = some [])) &&
      settled b (d + (k + 1)) (((List.range' d (k + 1)).map fun i => [i]).reverse ++ ds)
  | .autoFold z b, d, ds => (usesIn b 2 0).any (fun l => l.all fun q => decide (ds[q.1.loc]? = some [])) &&
      (settled z d ds && settled b d ([] :: [] :: ds))
def settledFields : SFields F → Nat → List (List Nat) → Bool
  | .nil, _, _ => true
  | .cons _ a rest, d, ds => settled a d ds && settledFields rest d ds
end

/-! ### The size of the first array that is read is the common size -/

theorem bind_map_append {α : Type} {x : Option (List α)} {f : List α → Option (List α)} {l : List α}
    (h : (x.bind fun a => (f a).map fun b => a ++ b) = some l) : ∃ a b, x = some a ∧ f a = some b ∧ l = a ++ b := by
  simp only [Option.bind_eq_some_iff, Option.map_eq_some_iff] at h
  obtain ⟨a, h1, b, h2, h3⟩ := h
  exact ⟨a, b, h1, h2, h3.symm⟩

theorem reads_isLoc {a : Script F} {σ : List (Option (Place × Nat))} {j lo j' : Nat} (hj : σ[j]?.join = none) (h : isLoc j a = true) :
    reads a σ lo j' = none := by
  cases a <;> simp [isLoc] at h
  subst h
  exact hj

theorem reads_operand {a : Script F} {σ : List (Option (Place × Nat))} {lo j : Nat} {q : Place × Nat} {l L : List (Place × Nat)}
    (hj : σ[j]?.join = none) (ih : ∀ l, uses a lo j = some l → l ⊆ L → q ∈ L) (hr : reads a σ lo j = some q)
    (h : (if isLoc j a then some [] else uses a lo j) = some l) (hL : l ⊆ L) : q ∈ L := by
  split at h
  · rename_i hl
    rw [reads_isLoc hj hl] at hr
    cases hr
  · exact ih l h hL

theorem sub_left {α : Type} {a b L : List α} (h : a ++ b ⊆ L) : a ⊆ L := fun _ hx => h (List.mem_append_left _ hx)
theorem sub_right {α : Type} {a b L : List α} (h : a ++ b ⊆ L) : b ⊆ L := fun _ hx => h (List.mem_append_right _ hx)

theorem some_cons {σ : List (Option (Place × Nat))} {L : List (Place × Nat)} (hσ : ∀ q, some q ∈ σ → q ∈ L) : ∀ q, some q ∈ none :: σ → q ∈ L :=
  fun q h => hσ q (by simpa using h)

theorem some_replicate {σ : List (Option (Place × Nat))} {L : List (Place × Nat)} (n : Nat) (hσ : ∀ q, some q ∈ σ → q ∈ L) :
    ∀ q, some q ∈ List.replicate n none ++ σ → q ∈ L :=
  fun q h => hσ q (by simpa using h)

mutual
theorem reads_among : ∀ (P : Script F) {σ : List (Option (Place × Nat))} {lo j : Nat} {q : Place × Nat} {L : List (Place × Nat)},
    σ[j]?.join = none → (∀ q, some q ∈ σ → q ∈ L) → reads P σ lo j = some q → ∀ l, uses P lo j = some l → l ⊆ L → q ∈ L
  | .loc n, σ, _, _, q, L, _, hσ, h => fun _ _ _ => by
    simp only [reads, Option.join_eq_some_iff] at h
    exact hσ q (List.mem_of_getElem? h)
  | .lit _, _, _, _, _, _, _, _, h => by simp [reads] at h
  | .assign a b, σ, lo, j, q, L, hj, hσ, h => by
    intro l hl hL
    obtain ⟨x, y, h1, h2, rfl⟩ := bind_map_append hl
    refine reads_among b (by simpa using hj) (fun q' hq' => ?_) h y h2 (sub_right hL)
    rcases List.mem_cons.1 hq' with hq' | hq'
    · split at hq'
      · exact reads_among a hj hσ hq'.symm x h1 (sub_left hL)
      · cases hq'
    · exact hσ q' hq'
  | .un _ a, σ, lo, j, q, L, hj, hσ, h => fun l hl hL => reads_operand hj (reads_among a hj hσ h) h hl hL
  | .bin _ a b, σ, lo, j, q, L, hj, hσ, h => by
    intro l hl hL
    obtain ⟨x, y, h1, h2, rfl⟩ := bind_map_append hl
    rcases or_some h with h | h
    · exact reads_operand hj (reads_among a hj hσ h) h h1 (sub_left hL)
    · exact reads_operand hj (reads_among b hj hσ h) h h2 (sub_right hL)
  | .choose a b d, σ, lo, j, q, L, hj, hσ, h => by
    intro l hl hL
    simp only [uses, Option.bind_eq_some_iff, Option.map_eq_some_iff] at hl
    obtain ⟨x, h1, y, h2, z, h3, rfl⟩ := hl
    rcases or_some h with h | h
    · exact reads_operand hj (reads_among a hj hσ h) h h1 (sub_left hL)
    rcases or_some h with h | h
    · exact reads_operand hj (reads_among b hj hσ h) h h2 (sub_left (sub_right hL))
    · exact reads_operand hj (reads_among d hj hσ h) h h3 (sub_right (sub_right hL))
  | .item x i, σ, lo, j, q, L, hj, hσ, h => by
    intro l hl hL
    simp only [uses, Option.bind_eq_some_iff] at hl
    obtain ⟨m, h1, h2⟩ := hl
    by_cases hi : isLoc j i = true
    · rw [if_pos hi] at h2
      obtain ⟨q', h3, rfl⟩ := Option.map_eq_some_iff.1 h2
      rw [reads, if_pos hi, h3] at h
      cases h
      exact hL (by simp)
    · rw [if_neg hi] at h2
      obtain ⟨y, h3, rfl⟩ := Option.map_eq_some_iff.1 h2
      rw [reads, if_neg hi, Option.none_or] at h
      rcases or_some h with h | h
      · exact reads_among x hj hσ h m h1 (sub_left hL)
      · exact reads_among i hj hσ h y h3 (sub_right hL)
  | .size x _, σ, lo, j, q, L, hj, hσ, h => fun l hl hL => reads_among x hj hσ h l hl hL
  | .array n b, σ, lo, j, q, L, hj, hσ, h => by
    intro l hl hL
    obtain ⟨x, y, h1, h2, rfl⟩ := bind_map_append hl
    rcases or_some h with h | h
    · exact reads_among n hj hσ h x h1 (sub_left hL)
    · exact reads_among b (by simpa using hj) (some_cons hσ) h y h2 (sub_right hL)
  | .fold n z b, σ, lo, j, q, L, hj, hσ, h => by
    intro l hl hL
    simp only [uses, Option.bind_eq_some_iff, Option.map_eq_some_iff] at hl
    obtain ⟨x, h1, y, h2, w, h3, rfl⟩ := hl
    rcases or_some h with h | h
    · exact reads_among n hj hσ h x h1 (sub_left hL)
    rcases or_some h with h | h
    · exact reads_among z hj hσ h y h2 (sub_left (sub_right hL))
    · exact reads_among b (by simpa using hj) (some_cons (some_cons hσ)) h w h3 (sub_right (sub_right hL))
  | .reduce n z b, σ, lo, j, q, L, hj, hσ, h => by
    intro l hl hL
    simp only [uses, Option.bind_eq_some_iff, Option.map_eq_some_iff] at hl
    obtain ⟨x, h1, y, h2, w, h3, rfl⟩ := hl
    rcases or_some h with h | h
    · exact reads_among n hj hσ h x h1 (sub_left hL)
    rcases or_some h with h | h
    · exact reads_among z hj hσ h y h2 (sub_left (sub_right hL))
    · exact reads_among b (by simpa using hj) (some_cons (some_cons hσ)) h w h3 (sub_right (sub_right hL))
  | .concat a b, σ, lo, j, q, L, hj, hσ, h => by
    intro l hl hL
    obtain ⟨x, y, h1, h2, rfl⟩ := bind_map_append hl
    rcases or_some h with h | h
    · exact reads_among a hj hσ h x h1 (sub_left hL)
    · exact reads_among b hj hσ h y h2 (sub_right hL)
  | .record _ fs, σ, lo, j, q, L, hj, hσ, h => fun l hl hL => readsFields_among fs hj hσ h l hl hL
  | .field x _, σ, lo, j, q, L, hj, hσ, h => fun l hl hL => by
    simp only [reads] at h
    split at h
    · exact reads_among x hj hσ h l hl hL
    · cases h
  | .part x _, σ, lo, j, q, L, hj, hσ, h => fun l hl hL => by
    simp only [reads] at h
    split at h
    · exact reads_among x hj hσ h l hl hL
    · cases h
  | .auto k b, σ, lo, j, q, L, hj, hσ, h => fun l hl hL =>
    reads_among b (by rw [List.getElem?_append_right (by simp), List.length_replicate, Nat.add_sub_cancel]; exact hj) (some_replicate _ hσ) h l hl hL
  | .autoFold z b, σ, lo, j, q, L, hj, hσ, h => by
    intro l hl hL
    obtain ⟨x, y, h1, h2, rfl⟩ := bind_map_append hl
    rcases or_some h with h | h
    · exact reads_among z hj hσ h x h1 (sub_left hL)
    · exact reads_among b (by simpa using hj) (some_cons (some_cons hσ)) h y h2 (sub_right hL)
theorem readsFields_among : ∀ (P : SFields F) {σ : List (Option (Place × Nat))} {lo j : Nat} {q : Place × Nat} {L : List (Place × Nat)},
    σ[j]?.join = none → (∀ q, some q ∈ σ → q ∈ L) → readsFields P σ lo j = some q → ∀ l, usesFields P lo j = some l → l ⊆ L → q ∈ L
  | .nil, _, _, _, _, _, _, _, h => by simp [readsFields] at h
  | .cons _ a rest, σ, lo, j, q, L, hj, hσ, h => by
    intro l hl hL
    obtain ⟨x, y, h1, h2, rfl⟩ := bind_map_append hl
    rcases or_some h with h | h
    · exact reads_among a hj hσ h x h1 (sub_left hL)
    · exact readsFields_among rest hj hσ h y h2 (sub_right hL)
end

mutual
theorem reads_amongIn : ∀ (P : Script F) {σ : List (Option (Place × Nat))} {lo j : Nat} {q : Place × Nat} {L : List (Place × Nat)},
    σ[j]?.join = none → (∀ q, some q ∈ σ → q ∈ L) → reads P σ lo j = some q → ∀ l, usesIn P lo j = some l → l ⊆ L → q ∈ L
  | .record _ fs, σ, lo, j, q, L, hj, hσ, h => fun l hl hL => readsFields_amongIn fs hj hσ h l hl hL
  | .assign a b, σ, lo, j, q, L, hj, hσ, h => by
    intro l hl hL
    obtain ⟨x, y, h1, h2, rfl⟩ := bind_map_append hl
    refine reads_amongIn b (by simpa using hj) (fun q' hq' => ?_) h y h2 (sub_right hL)
    rcases List.mem_cons.1 hq' with hq' | hq'
    · split at hq'
      · exact reads_among a hj hσ hq'.symm x h1 (sub_left hL)
      · cases hq'
    · exact hσ q' hq'
  | .loc _, _, _, _, _, _, hj, hσ, h => fun _ hl hL => reads_operand hj (reads_among _ hj hσ h) h hl hL
  | .lit _, _, _, _, _, _, hj, hσ, h => fun _ hl hL => reads_operand hj (reads_among _ hj hσ h) h hl hL
  | .un _ _, _, _, _, _, _, hj, hσ, h => fun _ hl hL => reads_operand hj (reads_among _ hj hσ h) h hl hL
  | .bin _ _ _, _, _, _, _, _, hj, hσ, h => fun _ hl hL => reads_operand hj (reads_among _ hj hσ h) h hl hL
  | .choose _ _ _, _, _, _, _, _, hj, hσ, h => fun _ hl hL => reads_operand hj (reads_among _ hj hσ h) h hl hL
  | .item _ _, _, _, _, _, _, hj, hσ, h => fun _ hl hL => reads_operand hj (reads_among _ hj hσ h) h hl hL
  | .size _ _, _, _, _, _, _, hj, hσ, h => fun _ hl hL => reads_operand hj (reads_among _ hj hσ h) h hl hL
  | .array _ _, _, _, _, _, _, hj, hσ, h => fun _ hl hL => reads_operand hj (reads_among _ hj hσ h) h hl hL
  | .fold _ _ _, _, _, _, _, _, hj, hσ, h => fun _ hl hL => reads_operand hj (reads_among _ hj hσ h) h hl hL
  | .reduce _ _ _, _, _, _, _, _, hj, hσ, h => fun _ hl hL => reads_operand hj (reads_among _ hj hσ h) h hl hL
  | .concat _ _, _, _, _, _, _, hj, hσ, h => fun _ hl hL => reads_operand hj (reads_among _ hj hσ h) h hl hL
  | .field _ _, _, _, _, _, _, hj, hσ, h => fun _ hl hL => reads_operand hj (reads_among _ hj hσ h) h hl hL
  | .part _ _, _, _, _, _, _, hj, hσ, h => fun _ hl hL => reads_operand hj (reads_among _ hj hσ h) h hl hL
  | .auto _ _, _, _, _, _, _, hj, hσ, h => fun _ hl hL => reads_operand hj (reads_among _ hj hσ h) h hl hL
  | .autoFold _ _, _, _, _, _, _, hj, hσ, h => fun _ hl hL => reads_operand hj (reads_among _ hj hσ h) h hl hL
theorem readsFields_amongIn : ∀ (P : SFields F) {σ : List (Option (Place × Nat))} {lo j : Nat} {q : Place × Nat} {L : List (Place × Nat)},
    σ[j]?.join = none → (∀ q, some q ∈ σ → q ∈ L) → readsFields P σ lo j = some q → ∀ l, usesInFields P lo j = some l → l ⊆ L → q ∈ L
  | .nil, _, _, _, _, _, _, _, h => by simp [readsFields] at h
  | .cons _ a rest, σ, lo, j, q, L, hj, hσ, h => by
    intro l hl hL
    obtain ⟨x, y, h1, h2, rfl⟩ := bind_map_append hl
    rcases or_some h with h | h
    · exact reads_amongIn a hj hσ h x h1 (sub_left hL)
    · exact readsFields_amongIn rest hj hσ h y h2 (sub_right hL)
end

theorem reads_mem_uses (P : Script F) {lo j : Nat} {q : Place × Nat} (h : reads P [] lo j = some q) (l : List (Place × Nat))
    (hl : usesIn P lo j = some l) : q ∈ l :=
  reads_amongIn P (by simp) (by simp) h l hl (List.Subset.refl _)

mutual
theorem usesIn_of_uses : ∀ (P : Script F) {lo j : Nat} {l : List (Place × Nat)}, uses P lo j = some l → usesIn P lo j = some l
  | .record _ fs, _, _, _, h => usesInFields_of_uses fs h
  | .assign a b, lo, j, l, h => by
    obtain ⟨x, y, h1, h2, rfl⟩ := bind_map_append h
    simp only [usesIn, h1, Option.bind_some, usesIn_of_uses b h2, Option.map_some]
  | .loc n, lo, j, l, h => by
    simp only [uses] at h
    split at h
    · cases h
    · rename_i hn
      simp only [usesIn, isLoc, hn, decide_false, Bool.false_eq_true, if_false, uses]
      exact h
  | .lit _, _, _, _, h => h
  | .un _ _, _, _, _, h => h
  | .bin _ _ _, _, _, _, h => h
  | .choose _ _ _, _, _, _, h => h
  | .item _ _, _, _, _, h => h
  | .size _ _, _, _, _, h => h
  | .array _ _, _, _, _, h => h
  | .fold _ _ _, _, _, _, h => h
  | .reduce _ _ _, _, _, _, h => h
  | .concat _ _, _, _, _, h => h
  | .field _ _, _, _, _, h => h
  | .part _ _, _, _, _, h => h
  | .auto _ _, _, _, _, h => h
  | .autoFold _ _, _, _, _, h => h
theorem usesInFields_of_uses : ∀ (P : SFields F) {lo j : Nat} {l : List (Place × Nat)}, usesFields P lo j = some l → usesInFields P lo j = some l
  | .nil, _, _, _, h => h
  | .cons _ a rest, lo, j, l, h => by
    obtain ⟨x, y, h1, h2, rfl⟩ := bind_map_append h
    simp only [usesInFields, usesIn_of_uses a h1, Option.bind_some, usesInFields_of_uses rest h2, Option.map_some]
end

theorem common_mem {vs : List (PVal F)} {l : List (Place × Nat)} {n : Nat} (h : common vs l = some n) :
    0 < n ∧ ∀ q ∈ l, (q.1.val vs).bind (extent q.2) = some n := by
  simp only [common, Option.bind_eq_some_iff] at h
  obtain ⟨ns, h1, h2⟩ := h
  cases ns with
  | nil => cases h2
  | cons n' ns =>
    simp only at h2
    split at h2
    · rename_i hc
      cases h2
      refine ⟨hc.1, fun q hq => ?_⟩
      obtain ⟨w, hw, hq'⟩ := mapOpt_all h1 q hq
      rw [hq']
      rcases List.mem_cons.1 hw with rfl | hw
      · rfl
      · rw [hc.2 w hw]
    · cases h2

theorem table_imp {f g : List Nat → Option (PVal F)} : ∀ {ns : List Nat} {v : PVal F}, (∀ ks w, f ks = some w → g ks = some w) →
    table ns f = some v → table ns g = some v
  | [], _, h, hv => h _ _ hv
  | n :: ns, v, h, hv => by
    simp only [table, Option.bind_eq_some_iff] at hv ⊢
    obtain ⟨ws, h1, h2⟩ := hv
    refine ⟨ws, ?_, h2⟩
    exact mapOpt_mono (fun k _ w hw => table_imp (fun ks w => h (k :: ks) w) hw) h1

variable [DecidableEq F]

/-- Nested comprehensions with the sizes of arrays outside. -/
theorem sem_nested {b : Script F} : ∀ {l : List (Place × Nat)} {ns : List Nat} {d : Nat} {vs : List (PVal F)} {v : PVal F},
    Phi.mapOpt (fun q => (q.1.val (vs.drop d)).bind (extent q.2)) l = some ns →
    table ns (fun ks => sem b ((ks.map fun k : Nat => PVal.sc (.i (k : Int))).reverse ++ vs)) = some v → sem (nested l d b) vs = some v
  | [], ns, d, vs, v, h, hv => by cases h; simpa [table, nested] using hv
  | (p, k) :: l, ns, d, vs, v, h, hv => by
    simp only [Phi.mapOpt, Option.bind_eq_some_iff, Option.some.injEq] at h
    obtain ⟨n, ⟨u, hu, hn⟩, ns, hns, rfl⟩ := h
    rw [nested, sem, sem, sem_place, place_val_drop, hu, Option.bind_some, hn]
    simp only [Option.bind_some, Option.map_some, toInt, Int.toNat_natCast]
    rw [table, Option.bind_eq_some_iff] at hv
    rw [Option.bind_eq_some_iff]
    obtain ⟨ws, h1, h2⟩ := hv
    refine ⟨ws, mapOpt_mono (fun j _ w hw => ?_) h1, h2⟩
    refine sem_nested (l := l) (ns := ns) (d := d + 1) (vs := .sc (.i j) :: vs) (by simpa using hns) ?_
    refine table_imp (fun ks w hw => ?_) hw
    simpa using hw

theorem loop_imp {α : Type} {f g : PVal F → α → Option (PVal F)} (h : ∀ v a w, f v a = some w → g v a = some w) : ∀ {l : List α} {v w : PVal F},
    loopOpt f v l = some w → loopOpt g v l = some w
  | [], _, _, hv => hv
  | a :: l, v, w, hv => by
    simp only [loopOpt, Option.bind_eq_some_iff] at hv ⊢
    obtain ⟨u, h1, h2⟩ := hv
    exact ⟨u, h _ _ _ h1, loop_imp h h2⟩

mutual
/-- What a typed program says, the program with the sizes filled in says as well. -/
theorem tells_fill : ∀ (P : Script F) {ts : List UTy} {t : UTy} {vs : List (PVal F)} {v : PVal F}, typ P ts = some t → tells P vs = some v →
    sem (fill P) vs = some v
  | .loc _, _, _, _, _, _, h => h
  | .lit _, _, _, _, _, _, h => h
  | .assign a b, ts, t, vs, v, ht, h => by
    simp only [typ, Option.bind_eq_some_iff] at ht
    obtain ⟨t1, ht1, ht2⟩ := ht
    simp only [tells, Option.bind_eq_some_iff] at h
    obtain ⟨u, hu, hv⟩ := h
    simp only [fill, sem, tells_fill a ht1 hu, Option.bind_some, tells_fill b ht2 hv]
  | .un _ a, ts, t, vs, v, ht, h => by
    simp only [typ, Option.bind_eq_some_iff] at ht
    obtain ⟨_, ⟨t1, ht1, _⟩, _⟩ := ht
    simp only [tells, Option.bind_eq_some_iff] at h
    obtain ⟨x, ⟨u, hu, hx⟩, h⟩ := h
    simp only [fill, sem, tells_fill a ht1 hu, hx, Option.bind_some, h]
  | .bin _ a b, ts, t, vs, v, ht, h => by
    simp only [typ, Option.bind_eq_some_iff] at ht
    obtain ⟨_, ⟨t1, ht1, _⟩, _, ⟨t2, ht2, _⟩, _⟩ := ht
    simp only [tells, Option.bind_eq_some_iff] at h
    obtain ⟨x, ⟨u, hu, hx⟩, y, ⟨w, hw, hy⟩, h⟩ := h
    simp only [fill, sem, tells_fill a ht1 hu, tells_fill b ht2 hw, hx, hy, Option.bind_some, h]
  | .choose a b d, ts, t, vs, v, ht, h => by
    simp only [typ, Option.bind_eq_some_iff] at ht
    obtain ⟨_, ⟨t1, ht1, _⟩, _, ⟨t2, ht2, _⟩, _, ⟨t3, ht3, _⟩, _⟩ := ht
    simp only [tells, Option.bind_eq_some_iff] at h
    obtain ⟨x, ⟨u, hu, hx⟩, y, ⟨w, hw, hy⟩, z, ⟨r, hr, hz⟩, h⟩ := h
    simp only [fill, sem, tells_fill a ht1 hu, tells_fill b ht2 hw, tells_fill d ht3 hr, hx, hy, hz, Option.bind_some, h]
  | .item a b, ts, t, vs, v, ht, h => by
    simp only [typ, Option.bind_eq_some_iff] at ht
    obtain ⟨_, ⟨t1, ht1, _⟩, _, ⟨t2, ht2, _⟩, _⟩ := ht
    simp only [tells, Option.bind_eq_some_iff] at h
    obtain ⟨x, ⟨u, hu, hx⟩, y, ⟨w, hw, hy⟩, h⟩ := h
    simp only [fill, sem, tells_fill a ht1 hu, tells_fill b ht2 hw, hx, hy, Option.bind_some, h]
  | .size a _, ts, t, vs, v, ht, h => by
    simp only [typ, Option.bind_eq_some_iff, Option.map_eq_some_iff] at ht
    obtain ⟨_, ⟨t1, ht1, _⟩, _⟩ := ht
    simp only [tells, Option.bind_eq_some_iff, Option.map_eq_some_iff] at h
    obtain ⟨x, ⟨u, hu, hx⟩, rfl⟩ := h
    simp only [fill, sem, tells_fill a ht1 hu, hx, Option.bind_some, Option.map_some]
  | .array n b, ts, t, vs, v, ht, h => by
    simp only [typ, Option.bind_eq_some_iff] at ht
    obtain ⟨k, ⟨t1, ht1, _⟩, ht⟩ := ht
    split at ht
    · obtain ⟨t', ht2, _⟩ := Option.map_eq_some_iff.1 ht
      simp only [tells, Option.bind_eq_some_iff] at h
      obtain ⟨x, ⟨u, hu, hx⟩, ws, hws, h⟩ := h
      simp only [fill, sem, tells_fill n ht1 hu, hx, Option.bind_some]
      rw [mapOpt_mono (fun j _ w hw => tells_fill b ht2 hw) hws]
      exact h
    · cases ht
  | .fold n z b, ts, t, vs, v, ht, h => by
    simp only [typ, Option.bind_eq_some_iff] at ht
    obtain ⟨k, ⟨t1, ht1, _⟩, ht⟩ := ht
    split at ht
    · simp only [Option.bind_eq_some_iff] at ht
      obtain ⟨t0, ht2, t3, ht3, ht⟩ := ht
      simp only [tells, Option.bind_eq_some_iff] at h
      obtain ⟨x, ⟨u, hu, hx⟩, v0, hv0, h⟩ := h
      simp only [fill, sem, tells_fill n ht1 hu, hx, Option.bind_some, tells_fill z ht2 hv0]
      exact loop_imp (fun _ _ _ hw => tells_fill b ht3 hw) h
    · cases ht
  | .reduce x z b, ts, t, vs, v, ht, h => by
    simp only [typ, Option.bind_eq_some_iff] at ht
    obtain ⟨t1, ⟨t0, ht1, hk⟩, t2, ht2, t3, ht3, ht⟩ := ht
    simp only [tells, Option.bind_eq_some_iff] at h
    obtain ⟨l, ⟨u, hu, hx⟩, v0, hv0, h⟩ := h
    simp only [fill, sem, tells_fill x ht1 hu, hx, Option.bind_some, tells_fill z ht2 hv0]
    exact loop_imp (fun _ _ _ hw => tells_fill b ht3 hw) h
  | .concat a b, ts, t, vs, v, ht, h => by
    simp only [typ, Option.bind_eq_some_iff] at ht
    obtain ⟨_, ⟨t1, ht1, _⟩, _, ⟨t2, ht2, _⟩, _⟩ := ht
    simp only [tells, Option.bind_eq_some_iff] at h
    obtain ⟨x, ⟨u, hu, hx⟩, y, ⟨w, hw, hy⟩, h⟩ := h
    simp only [fill, sem, tells_fill a ht1 hu, tells_fill b ht2 hw, hx, hy, Option.bind_some, h]
  | .record _ fs, ts, t, vs, v, ht, h => by
    simp only [typ, Option.bind_eq_some_iff] at ht
    obtain ⟨ps, hps, _⟩ := ht
    simp only [tells, Option.map_eq_some_iff] at h
    obtain ⟨l, hl, rfl⟩ := h
    simp only [fill, sem, tellsFields_fill fs hps hl, Option.map_some]
  | .field a _, ts, t, vs, v, ht, h => by
    simp only [typ, Option.bind_eq_some_iff] at ht
    obtain ⟨t1, ht1, _⟩ := ht
    simp only [tells, Option.bind_eq_some_iff] at h
    obtain ⟨u, hu, hv⟩ := h
    simp only [fill, sem, tells_fill a ht1 hu, Option.bind_some, hv]
  | .part a _, ts, t, vs, v, ht, h => by
    simp only [typ, Option.bind_eq_some_iff] at ht
    obtain ⟨t1, ht1, _⟩ := ht
    simp only [tells, Option.bind_eq_some_iff] at h
    obtain ⟨u, hu, hv⟩ := h
    simp only [fill, sem, tells_fill a ht1 hu, Option.bind_some, hv]
  | .auto k b, ts, t, vs, v, ht, h => by
    simp only [typ, Option.bind_eq_some_iff] at ht
    obtain ⟨l, hl, ht⟩ := ht
    split at ht
    · obtain ⟨t', ht', _⟩ := Option.map_eq_some_iff.1 ht
      simp only [tells, Option.bind_eq_some_iff] at h
      obtain ⟨ls, hls, ns, hns, h⟩ := h
      simp only [fill, hl]
      refine sem_nested (d := 0) (ns := ns) ?_ (table_imp (fun ks w hw => tells_fill b ht' hw) h)
      have hll := mapOpt_length hl
      have hlls := mapOpt_length hls
      have hnl := mapOpt_length hns
      rw [List.length_range] at hll hlls
      refine mapOpt_pointwise (by omega) fun m q n hq hn => ?_
      rw [mapOpt_getElem? hns] at hn
      obtain ⟨us, hus, hn⟩ := Option.bind_eq_some_iff.1 hn
      rw [mapOpt_getElem? hls] at hus
      rw [mapOpt_getElem? hl] at hq
      obtain ⟨m', hm', hus⟩ := Option.bind_eq_some_iff.1 hus
      rw [hm', Option.bind_some] at hq
      exact (common_mem hn).2 q (reads_mem_uses b hq us hus)
    · cases ht
  | .autoFold z b, ts, t, vs, v, ht, h => by
    simp only [typ, Option.bind_eq_some_iff] at ht
    obtain ⟨⟨p, k⟩, hq, te, _, t0, ht2, t3, ht3, ht⟩ := ht
    simp only [tells, Option.bind_eq_some_iff] at h
    obtain ⟨l, hl, n, hn, v0, hv0, h⟩ := h
    have := (common_mem hn).2 _ (reads_mem_uses b hq l hl)
    obtain ⟨u, hu, he⟩ := Option.bind_eq_some_iff.1 this
    simp only [fill, hq, sem, sem_place, hu, he, Option.bind_some, Option.map_some, toInt, tells_fill z ht2 hv0, Int.toNat_natCast]
    exact loop_imp (fun _ _ _ hw => tells_fill b ht3 hw) h
theorem tellsFields_fill : ∀ (P : SFields F) {ts : List UTy} {t : UFields} {vs : List (PVal F)} {v : List (String × PVal F)},
    typFields P ts = some t → tellsFields P vs = some v → semFields (fillFields P) vs = some v
  | .nil, _, _, _, _, _, h => h
  | .cons _ a rest, ts, t, vs, v, ht, h => by
    simp only [typFields, Option.bind_eq_some_iff, Option.map_eq_some_iff] at ht
    obtain ⟨t1, ht1, ps, hps, _⟩ := ht
    simp only [tellsFields, Option.bind_eq_some_iff, Option.map_eq_some_iff] at h
    obtain ⟨u, hu, l, hl, rfl⟩ := h
    simp only [fillFields, semFields, tells_fill a ht1 hu, tellsFields_fill rest hps hl, Option.bind_some, Option.map_some]
end

end Verif.Frontend
