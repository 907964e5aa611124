import Verif.Midend.SizeMoment
import Verif.Codegen.Correct

/-!
Model of the inference of comprehension sizes and fold counts (`ein/frontend/comprehension.py:53-102`), and of
the expressions `array` and `fold` build (`comprehension.py:140-175`) once the Python function has been called.
-/

namespace Verif.Frontend
open Verif.Phi Verif.Term Verif.Midend Verif.Codegen
variable {F : Type}

/-- A read by a symbol: `case phi.Get(target, phi.Store(symbol))` (`comprehension.py:68`). -/
def directRead : Phi.Head F → List (Expr F) → Option (Sym × Expr F)
  | .get, [t, node (.store s _) _] => some (s, t)
  | _, _ => none

/-- The assignments to `direct_indices` in the order in which `go` makes them (`comprehension.py:64-73`): symbol,
target, and the symbols captured there. `visited` stays empty in the code, so nothing is skipped. -/
def directReads (e : Expr F) : Finset Sym → List (Sym × Expr F × Finset Sym) :=
  para (fun h (ts : List (Expr F × (Finset Sym → List (Sym × Expr F × Finset Sym)))) captured =>
    ((directRead h (ts.map Prod.fst)).toList.map fun q => (q.1, q.2, captured)) ++
      (ts.map fun t => t.2 (captured ∪ Head.captured h)).flatten) e

variable [DecidableEq F]

/-- `d[target] = captured` for a dictionary: an existing key keeps its place and gets the new value. -/
def assign (d : List (Expr F × Finset Sym)) (q : Expr F × Finset Sym) : List (Expr F × Finset Sym) :=
  if q.1 ∈ d.map Prod.fst then d.map fun r => if r.1 = q.1 then q else r else d ++ [q]

/-- `direct_indices.get(index, {}).items()` (`comprehension.py:82`) -/
def directIndices (body : Expr F) (captured : Finset Sym) (s : Sym) : List (Expr F × Finset Sym) :=
  (((directReads body captured).filter fun q => q.1 = s).map Prod.snd).foldl assign []

/-- `candidates` (`comprehension.py:80-85`) -/
def candidates (body : Expr F) (captured : Finset Sym) (s : Sym) : List (Expr F) :=
  (directIndices body captured s).filterMap fun q =>
    if Disjoint (fv (dimExpr q.1 0)) q.2 then some (atZero (dimExpr q.1 0)) else none

/-- `re_candidates` (`comprehension.py:92-96`): without duplicates, in the order of first occurrence. -/
def distinct (l : List (Expr F)) : List (Expr F) :=
  l.foldl (fun acc c => if c ∈ acc then acc else acc ++ [c]) []

/-- `size_of[index]` without given sizes (`comprehension.py:75-102`); `none` is `ValueError`. -/
def inferSize (body : Expr F) (symbols : List Sym) (initial : Finset Sym) (s : Sym) : Option (Expr F) :=
  match candidates body (symbols.toFinset ∪ initial) s with
  | [] => none
  | c :: cs =>
    if 1 < (distinct (c :: cs)).length then some (node .assertEq (c :: distinct (c :: cs))) else some c

/-- `_infer_sizes` (`comprehension.py:53-102`): the sizes of the symbols in order. With given sizes, their number
must be right (`zip(..., strict=True)`). -/
def inferSizes (body : Expr F) (symbols : List Sym) (initial : Finset Sym) :
    Option (List (Expr F)) → Option (List (Expr F))
  | some sizes => if sizes.length = symbols.length then some sizes else none
  | none => mapOpt (inferSize body symbols initial) symbols

/-- `for index in reversed(indices): body = phi.Vec(index, size_of[index], body)` (`comprehension.py:150-151`) -/
def nest : List (Nat × Expr F) → Expr F → Expr F
  | [], b => b
  | (i, n) :: l, b => vec i n (nest l b)

/-- `array` (`comprehension.py:140-153`) for a constructor that returned `body`; layouts are left out. -/
def arrayOf (indices : List Nat) (body : Expr F) (sizes : Option (List (Expr F))) : Option (Expr F) :=
  (inferSizes body (indices.map .idx) ∅ sizes).map fun ns => nest (indices.zip ns) body

/-- `fold` (`comprehension.py:156-175`) for a step function that returned `body`; layouts are left out. -/
def foldOf (counter acc : Nat) (init body : Expr F) (count : Option (Expr F)) : Option (Expr F) :=
  (inferSizes body [.var counter] {.var acc} (count.map fun n => [n])).bind fun ns =>
    ns.head?.map fun n => fold counter acc n init body

/-! ### What is collected -/

omit [DecidableEq F] in
theorem directReads_node (h : Phi.Head F) (ts : List (Expr F)) (C : Finset Sym) :
    directReads (node h ts) C = ((directRead h ts).toList.map fun q => (q.1, q.2, C)) ++
      (ts.map fun t => directReads t (C ∪ Head.captured h)).flatten := by
  unfold directReads
  rw [para_node]
  simp only [List.map_map, Function.comp_def, List.map_id']

omit [DecidableEq F] in
/-- Every direct read is collected. -/
theorem mem_directReads {t p : Expr F} {s : Sym} {τ : Ty} {us : List (Expr F)}
    (h : Occurs (node .get [t, node (.store s τ) us]) p) (C : Finset Sym) : ∃ c, (s, t, c) ∈ directReads p C := by
  generalize he : node .get [t, node (.store s τ) us] = e at h
  induction h generalizing C with
  | refl =>
    subst he
    refine ⟨C, ?_⟩
    rw [directReads_node]
    simp [directRead]
  | child hu _ ih =>
    subst he
    obtain ⟨c, h1⟩ := ih (C ∪ Head.captured _)
    refine ⟨c, ?_⟩
    rw [directReads_node]
    exact List.mem_append_right _ (List.mem_flatten.2 ⟨_, List.mem_map.2 ⟨_, hu, rfl⟩, h1⟩)

omit [DecidableEq F] in
theorem directRead_eq {h : Phi.Head F} {ts : List (Expr F)} {q : Sym × Expr F} (hq : directRead h ts = some q) :
    h = .get ∧ q.2 ∈ ts := by
  unfold directRead at hq
  split at hq
  · cases hq; simp
  · cases hq

omit [DecidableEq F] in
/-- What is collected occurs in the program, and its free symbols are free in the program or captured. -/
theorem directReads_mem (p : Expr F) : ∀ (C : Finset Sym) (q : Sym × Expr F × Finset Sym), q ∈ directReads p C →
    Occurs q.2.1 p ∧ C ⊆ q.2.2 ∧ q.2.2 ⊆ C ∪ binders p ∧ fv q.2.1 ⊆ fv p ∪ q.2.2 := by
  induction p using ind with
  | step h ts ih =>
    intro C q hq
    rw [directReads_node, List.mem_append] at hq
    rcases hq with hq | hq
    · obtain ⟨r, hr, rfl⟩ := List.mem_map.1 hq
      obtain ⟨rfl, hr'⟩ := directRead_eq (Option.mem_toList.1 hr)
      refine ⟨.child hr' (.refl _), subset_rfl, Finset.subset_union_left, fun x hx => Finset.mem_union_left _ ?_⟩
      exact mem_fv.2 ⟨.inr ⟨_, hr', hx⟩, Finset.notMem_empty _⟩
    · obtain ⟨l, hl, hq⟩ := List.mem_flatten.1 hq
      obtain ⟨t, ht, rfl⟩ := List.mem_map.1 hl
      obtain ⟨h1, h2, h5, h3⟩ := ih t ht _ q hq
      refine ⟨.child ht h1, fun x hx => h2 (Finset.mem_union_left _ hx), fun x hx => ?_, fun x hx => ?_⟩
      · have := h5 hx
        simp only [Finset.mem_union] at this ⊢
        rcases this with (h | h) | h
        · exact .inl h
        · exact .inr (mem_binders.2 (.inl h))
        · exact .inr (mem_binders.2 (.inr ⟨t, ht, h⟩))
      rcases Finset.mem_union.1 (h3 hx) with h4 | h4
      · by_cases hc : x ∈ Head.captured h
        · exact Finset.mem_union_right _ (h2 (Finset.mem_union_right _ hc))
        · exact Finset.mem_union_left _ (mem_fv.2 ⟨.inr ⟨t, ht, h4⟩, hc⟩)
      · exact Finset.mem_union_right _ h4

/-! ### Dictionaries and lists -/

theorem assign_keys (d : List (Expr F × Finset Sym)) (q : Expr F × Finset Sym) :
    q.1 ∈ (assign d q).map Prod.fst ∧ ∀ t ∈ d.map Prod.fst, t ∈ (assign d q).map Prod.fst := by
  unfold assign
  split
  · rename_i h
    have : (d.map fun r => if r.1 = q.1 then q else r).map Prod.fst = d.map Prod.fst := by
      rw [List.map_map]
      refine List.map_congr_left fun r _ => ?_
      simp only [Function.comp_apply]
      split
      · rename_i h; exact h.symm
      · rfl
    rw [this]
    exact ⟨h, fun t h => h⟩
  · rw [List.map_append]
    exact ⟨List.mem_append_right _ (by simp), fun t h => List.mem_append_left _ h⟩

theorem mem_assign {d : List (Expr F × Finset Sym)} {q r : Expr F × Finset Sym} (h : r ∈ assign d q) :
    r = q ∨ r ∈ d := by
  unfold assign at h
  split at h
  · obtain ⟨x, hx, rfl⟩ := List.mem_map.1 h
    split
    · exact .inl rfl
    · exact .inr hx
  · rw [List.mem_append, List.mem_singleton] at h
    exact h.symm

theorem foldl_assign (l : List (Expr F × Finset Sym)) : ∀ d : List (Expr F × Finset Sym),
    (∀ t, t ∈ d.map Prod.fst ∨ t ∈ l.map Prod.fst → t ∈ (l.foldl assign d).map Prod.fst) ∧
    ∀ r ∈ l.foldl assign d, r ∈ d ∨ r ∈ l := by
  induction l with
  | nil => intro d; exact ⟨fun t h => by simpa using h, fun r h => .inl h⟩
  | cons q l ih =>
    intro d
    obtain ⟨h1, h2⟩ := ih (assign d q)
    obtain ⟨h3, h4⟩ := assign_keys d q
    refine ⟨fun t h => h1 t ?_, fun r hr => ?_⟩
    · rcases h with h | h
      · exact .inl (h4 t h)
      · rw [List.map_cons, List.mem_cons] at h
        rcases h with rfl | h
        · exact .inl h3
        · exact .inr h
    · rcases h2 r hr with h | h
      · rcases mem_assign h with rfl | h
        · exact .inr List.mem_cons_self
        · exact .inl h
      · exact .inr (List.mem_cons_of_mem _ h)

theorem mem_distinct {l : List (Expr F)} {c : Expr F} : c ∈ distinct l ↔ c ∈ l := by
  have : ∀ (l acc : List (Expr F)), c ∈ l.foldl (fun acc c => if c ∈ acc then acc else acc ++ [c]) acc ↔
      c ∈ acc ∨ c ∈ l := by
    intro l
    induction l with
    | nil => simp
    | cons x l ih =>
      intro acc
      rw [List.foldl_cons, ih]
      split
      · rename_i h
        constructor
        · rintro (h | h)
          · exact .inl h
          · exact .inr (List.mem_cons_of_mem _ h)
        · rintro (h1 | h1)
          · exact .inl h1
          · rcases List.mem_cons.1 h1 with rfl | h1
            · exact .inl h
            · exact .inr h1
      · simp only [List.mem_append, List.mem_cons, or_assoc]
        simp
  unfold distinct
  rw [this]
  simp

/-! ### Candidates -/

/-- The length of an array that is read directly is a candidate if it can be computed outside. -/
theorem mem_candidates {body t : Expr F} {s : Sym} {τ : Ty} {us : List (Expr F)} {C : Finset Sym}
    (h : Occurs (node .get [t, node (.store s τ) us]) body) (hd : Disjoint (fv (dimExpr t 0)) (C ∪ binders body)) :
    atZero (dimExpr t 0) ∈ candidates body C s := by
  obtain ⟨c, h1⟩ := mem_directReads h C
  have h3 : (t, c) ∈ ((directReads body C).filter fun q => q.1 = s).map Prod.snd :=
    List.mem_map.2 ⟨(s, t, c), List.mem_filter.2 ⟨h1, by simp⟩, rfl⟩
  obtain ⟨hk, hm⟩ := foldl_assign (((directReads body C).filter fun q => q.1 = s).map Prod.snd) []
  obtain ⟨⟨t', c'⟩, h4, h5⟩ := List.mem_map.1 (hk t (.inr (List.mem_map.2 ⟨_, h3, rfl⟩)))
  have h5 : t' = t := h5
  subst h5
  refine List.mem_filterMap.2 ⟨(t', c'), h4, if_pos ?_⟩
  rcases hm _ h4 with h | h
  · cases h
  · obtain ⟨q, hq, h6⟩ := List.mem_map.1 h
    obtain ⟨_, _, h7, _⟩ := directReads_mem body C q (List.mem_filter.1 hq).1
    rw [h6] at h7
    exact hd.mono_right h7

/-- Where candidates come from. -/
theorem candidates_mem {body c : Expr F} {s : Sym} {C : Finset Sym} (h : c ∈ candidates body C s) :
    ∃ t, Occurs t body ∧ c = atZero (dimExpr t 0) ∧ Disjoint (fv (dimExpr t 0)) C ∧
      ∀ x ∈ fv (dimExpr t 0), x ∈ fv t → x ∈ fv body := by
  obtain ⟨⟨t, c'⟩, h1, h2⟩ := List.mem_filterMap.1 h
  dsimp only at h2
  split at h2
  · rename_i hd
    cases h2
    obtain ⟨_, hm⟩ := foldl_assign (((directReads body C).filter fun q => q.1 = s).map Prod.snd) []
    rcases hm _ h1 with h | h
    · cases h
    · obtain ⟨q, hq, h6⟩ := List.mem_map.1 h
      obtain ⟨h3, h4, _, h7⟩ := directReads_mem body C q (List.mem_filter.1 hq).1
      rw [h6] at h3 h4 h7
      refine ⟨t, h3, rfl, hd.mono_right h4, fun x hx hx' => ?_⟩
      rcases Finset.mem_union.1 (h7 hx') with h | h
      · exact h
      · exact absurd h (Finset.disjoint_left.1 hd hx)
  · cases h2

/-- The inferred size is the first candidate, and an assertion if there are others. -/
theorem inferSize_eq {body size : Expr F} {symbols : List Sym} {initial : Finset Sym} {s : Sym}
    (h : inferSize body symbols initial s = some size) :
    ∃ c ∈ candidates body (symbols.toFinset ∪ initial) s,
      (size = c ∧ ∀ c' ∈ candidates body (symbols.toFinset ∪ initial) s, c' = c) ∨
      size = node .assertEq (c :: distinct (candidates body (symbols.toFinset ∪ initial) s)) := by
  unfold inferSize at h
  split at h
  · cases h
  · rename_i c cs hc
    rw [hc]
    refine ⟨c, by simp, ?_⟩
    split at h
    · cases h; exact .inr rfl
    · rename_i hl
      cases h
      refine .inl ⟨rfl, fun c' hc' => ?_⟩
      have h1 := mem_distinct.2 hc'
      have h2 : size ∈ distinct (size :: cs) := mem_distinct.2 (by simp)
      match hd : distinct (size :: cs), h1, h2, hl with
      | [x], h1, h2, _ => rw [List.mem_singleton.1 h1, List.mem_singleton.1 h2]
      | _ :: _ :: _, _, _, hl => simp at hl

/-! ### Values -/

variable [FloatOps F] {I : Ext F}

omit [DecidableEq F] [FloatOps F] in
theorem eq_int_of_asInt {x : Option (D F)} {n : Int} (hx : x.bind Val.asInt = some n) : x = some (.int n) := by
  cases x with
  | none => cases hx
  | some x =>
    cases x with
    | sc c => cases c <;> simp [Val.asInt] at hx; subst hx; rfl
    | vec _ => cases hx
    | pair _ _ => cases hx

omit [DecidableEq F] in
/-- An assertion that passes: the operands have one value, and the result is the target. -/
theorem run_assertEq {t : Expr F} {ops : List (Expr F)} {env : Env (D F)} {v : D F}
    (h : run I (node .assertEq (t :: ops)) env = some v) :
    run I t env = some v ∧ ∃ m : Int, ∀ c ∈ ops, run I c env = some (.int m) := by
  rw [run_node] at h
  simp only [List.map, runDen, assertOf] at h
  obtain ⟨ns, h1, h⟩ := Option.bind_eq_some_iff.1 h
  cases ns with
  | nil => cases h
  | cons m ns =>
    simp only at h
    split at h
    · rename_i hall
      refine ⟨h, m, fun c hc => eq_int_of_asInt ?_⟩
      rw [List.map_map, mapOpt_map] at h1
      obtain ⟨b, hb, h2⟩ := mapOpt_all h1 c hc
      rcases List.mem_cons.1 hb with rfl | hb
      · exact h2
      · have := List.all_eq_true.1 hall _ hb
        rw [← of_decide_eq_true this]; exact h2
    · cases h

/-- All candidates have the value of the inferred size, where it has a value. -/
theorem run_inferSize {body size : Expr F} {symbols : List Sym} {initial : Finset Sym} {s : Sym}
    (h : inferSize body symbols initial s = some size) {env : Env (D F)} {n : Int}
    (hv : run I size env = some (.int n)) {c : Expr F}
    (hc : c ∈ candidates body (symbols.toFinset ∪ initial) s) : run I c env = some (.int n) := by
  obtain ⟨c₀, h0, ⟨rfl, h1⟩ | rfl⟩ := inferSize_eq h
  · rw [h1 c hc]; exact hv
  · obtain ⟨h1, m, h2⟩ := run_assertEq hv
    have h3 := h2 c₀ (mem_distinct.2 h0)
    rw [h1] at h3
    cases h3
    exact h2 c (mem_distinct.2 hc)

omit [DecidableEq F] in
theorem tidy_dimExpr {t : Expr F} (h : Tidy t) (k : Nat) : Tidy (dimExpr t k) := by
  induction t using ind generalizing k with
  | step hd ts ih =>
    have hch : ∀ u ∈ ts, Tidy u := fun u hu => h.occurs (.child hu (.refl _))
    by_cases hg : ∃ t i, hd = .get ∧ ts = [t, i]
    · obtain ⟨t, i, rfl, rfl⟩ := hg
      rw [dimExpr_get]
      exact ih t (by simp) (hch t (by simp)) (k + 1)
    · by_cases hve : ∃ j n b, hd = .vec j ∧ ts = [n, b] ∧ k = 0
      · obtain ⟨j, n, b, rfl, rfl, rfl⟩ := hve
        rw [dimExpr_vec]
        exact hch n (by simp)
      · rw [dimExpr_other (fun t i h => hg ⟨t, i, h⟩) (fun j n b h => hve ⟨j, n, b, h⟩)]
        exact h.dim k

/-- The symbols of the length of an array are among the symbols of the array. -/
theorem fv_dimExpr {t : Expr F} (h : Scoped t) (k : Nat) : fv (dimExpr t k) ⊆ fv t := by
  induction t using ind generalizing k with
  | step hd ts ih =>
    by_cases hg : ∃ t i, hd = .get ∧ ts = [t, i]
    · obtain ⟨t, i, rfl, rfl⟩ := hg
      rw [dimExpr_get]
      intro x hx
      exact mem_fv.2 ⟨.inr ⟨t, by simp, ih t (by simp) (h.children t (by simp)) (k + 1) hx⟩, Finset.notMem_empty _⟩
    · by_cases hve : ∃ j n b, hd = .vec j ∧ ts = [n, b] ∧ k = 0
      · obtain ⟨j, n, b, rfl, rfl, rfl⟩ := hve
        rw [dimExpr_vec]
        exact fun x hx => fv_outside h (k := 0) rfl rfl hx
      · rw [dimExpr_other (fun t i h => hg ⟨t, i, h⟩) (fun j n b h => hve ⟨j, n, b, h⟩)]
        intro x hx
        obtain ⟨h1 | ⟨t, ht, h1⟩, _⟩ := mem_fv.1 hx
        · cases h1
        · rw [List.mem_singleton.1 ht] at h1; exact h1

omit [DecidableEq F] in
/-- The expression formed for a dimension has its value (as a number of elements: a comprehension of negative size
has none). -/
theorem run_dimExpr_length (hI : RegularExt I) {env : Env (D F)} (he : RegularEnv env) (t : Expr F) :
    RegularConsts t → ∀ k v d, run I t env = some v → Val.dim k v = some d →
      ∃ n : Int, run I (dimExpr t k) env = some (.int n) ∧ n.toNat = d := by
  induction t using ind with
  | step h ts ih =>
    intro hc k v d hv hd
    have hch : ∀ t ∈ ts, RegularConsts t := ((regularConsts_node _ _).1 hc).2
    by_cases hg : ∃ t i, h = .get ∧ ts = [t, i]
    · obtain ⟨t, i, rfl, rfl⟩ := hg
      obtain ⟨vs, hvs, _⟩ := run_get_vec hv
      rw [dimExpr_get]
      refine ih t (by simp) (hch t (by simp)) (k + 1) _ d hvs ?_
      rw [← dim_get (run_regular hI t (hch t (by simp)) env _ he hvs) hvs hv, hd]
    · by_cases hve : ∃ j n b, h = .vec j ∧ ts = [n, b] ∧ k = 0
      · obtain ⟨j, n, b, rfl, rfl, rfl⟩ := hve
        rw [dimExpr_vec]
        rw [run_node] at hv
        simp only [List.map, runDen, vecOf] at hv
        obtain ⟨m, h1, hv⟩ := Option.bind_eq_some_iff.1 hv
        obtain ⟨vs, h2, hv⟩ := Option.bind_eq_some_iff.1 hv
        split at hv
        · cases hv
          have hl := mapOpt_length h2
          rw [List.length_range] at hl
          simp only [Val.dim, Option.some.injEq] at hd
          exact ⟨m, eq_int_of_asInt h1, by omega⟩
        · cases hv
      · rw [dimExpr_other (fun t i h => hg ⟨t, i, h⟩) (fun j n b h => hve ⟨j, n, b, h⟩)]
        refine ⟨d, ?_, by simp⟩
        rw [run_dim, hv]
        simp only [dimOf, Option.bind_some, hd]

end Verif.Frontend
