import Verif.Midend.Cse

/-! The memo table of `inline` (`ein/midend/lining.py:179-185`), and preservation of unique binders
by inlining. -/

set_option linter.unusedSectionVars false

namespace Verif.Midend
open Term
variable {H V : Type} [Lang H] [DecidableEq H]

/-- The table `transformed` (`lining.py:179`). -/
abbrev Memo (H : Type) := List (Term H × Term H)

/-- `expr.map(lambda e: go(e, bound))` (`lining.py:177`), threading the table through. -/
def memoChildren (bound : List (Nat × Term H)) :
    List (Term H × (List (Nat × Term H) → Memo H → Term H × Memo H)) → Memo H →
      List (Term H) × Memo H
  | [], T => ([], T)
  | f :: fs, T =>
    let r := f.2 bound T
    let rs := memoChildren bound fs r.2
    (r.1 :: rs.1, rs.2)

/-- `lining.py:174-177` with the table. -/
def memoRest (bound : List (Nat × Term H)) (h : H)
    (fs : List (Term H × (List (Nat × Term H) → Memo H → Term H × Memo H))) (T : Memo H) :
    Term H × Memo H :=
  match Lang.symbol h with
  | some (.var v) =>
    match lookup v bound with
    | some u => (u, T)
    | none => let r := memoChildren bound fs T; (node h r.1, r.2)
  | _ => let r := memoChildren bound fs T; (node h r.1, r.2)

/-- `_go(expr, bound)` (`lining.py:167-177`) with the table. -/
def memoStep (pred : Term H → Bool) (h : H)
    (fs : List (Term H × (List (Nat × Term H) → Memo H → Term H × Memo H)))
    (bound : List (Nat × Term H)) (T : Memo H) : Term H × Memo H :=
  match Lang.letVar h, fs with
  | some v, [bind, body] =>
    if pred bind.1 then
      let r := bind.2 bound T
      body.2 ((v, r.1) :: bound) r.2
    else memoRest bound h fs T
  | _, _ => memoRest bound h fs T

/-- `go(expr, bound)` (`lining.py:181-184`). -/
def memoAlg (pred : Term H → Bool) (h : H)
    (fs : List (Term H × (List (Nat × Term H) → Memo H → Term H × Memo H)))
    (bound : List (Nat × Term H)) (T : Memo H) : Term H × Memo H :=
  match lookup (node h (fs.map Prod.fst)) T with
  | some r => (r, T)
  | none =>
    let r := memoStep pred h fs bound T
    (r.1, (node h (fs.map Prod.fst), r.1) :: r.2)

/-- `go` (`lining.py:181-184`). -/
def inlineMemoGo (pred : Term H → Bool) (bound : List (Nat × Term H)) (T : Memo H) (t : Term H) :
    Term H × Memo H := para (memoAlg pred) t bound T

/-- `inline(program, only_renames=...)` (`lining.py:161-185`), with the memo table. -/
def inlineMemo (onlyRenames : Bool) (p : Term H) : Term H :=
  (inlineMemoGo (inlinePred onlyRenames) [] [] p).1

/-! ### Visits -/

/-- `go(x, b)` is called during `inline(p)` (without the table). -/
inductive Reached (pred : Term H → Bool) (p : Term H) : List (Nat × Term H) → Term H → Prop
  | root : Reached pred p [] p
  | bind {b v bind body} : Reached pred p b (node (Lang.letHead v) [bind, body]) →
      pred bind = true → Reached pred p b bind
  | body {b v bind body} : Reached pred p b (node (Lang.letHead v) [bind, body]) →
      pred bind = true → Reached pred p ((v, inlineGo pred b bind) :: b) body
  | child {b h ts t} : Reached pred p b (node h ts) → ¬ InlinedLet pred h ts → t ∈ ts →
      Reached pred p b t

variable {pred : Term H → Bool} {p : Term H}

theorem Reached.occurs {b : List (Nat × Term H)} {x : Term H} (h : Reached pred p b x) :
    Occurs x p := by
  induction h with
  | root => exact .refl _
  | bind _ _ ih => exact (Occurs.child (by simp) (.refl _)).trans ih
  | body _ _ ih => exact (Occurs.child (by simp) (.refl _)).trans ih
  | child _ _ ht ih => exact (Occurs.child ht (.refl _)).trans ih

/-- Where a bound variable comes from. -/
theorem Reached.origin {b : List (Nat × Term H)} {x : Term H} (h : Reached pred p b x) :
    ∀ v y, lookup v b = some y → ∃ b0 bind body, Reached pred p b0 (node (Lang.letHead v) [bind, body])
      ∧ pred bind = true ∧ y = inlineGo pred b0 bind ∧
      x.size < (node (Lang.letHead v : H) [bind, body]).size := by
  induction h with
  | root => intro v y h; simp [lookup] at h
  | @bind b v bind body hr hp ih =>
    intro w y hl
    obtain ⟨b0, bi, bo, h1, h2, h3, h4⟩ := ih w y hl
    have := size_lt_of_mem (h := (Lang.letHead v : H)) (ts := [bind, body]) (t := bind) (by simp)
    exact ⟨b0, bi, bo, h1, h2, h3, by omega⟩
  | @body b v bind body hr hp ih =>
    intro w y hl
    have hlt := size_lt_of_mem (h := (Lang.letHead v : H)) (ts := [bind, body]) (t := body) (by simp)
    unfold lookup at hl
    split_ifs at hl with hw
    · cases hl
      subst hw
      exact ⟨b, bind, body, hr, hp, rfl, hlt⟩
    · obtain ⟨b0, bi, bo, h1, h2, h3, h4⟩ := ih w y hl
      exact ⟨b0, bi, bo, h1, h2, h3, by omega⟩
  | @child b h ts t hr hn ht ih =>
    intro w y hl
    obtain ⟨b0, bi, bo, h1, h2, h3, h4⟩ := ih w y hl
    have := size_lt_of_mem (h := h) ht
    exact ⟨b0, bi, bo, h1, h2, h3, by omega⟩

/-- A free symbol of a visited term is bound by an inlined let, free in the program, or bound by a
node that stays. -/
theorem Reached.free {b : List (Nat × Term H)} {x : Term H} (h : Reached pred p b x)
    (hns : NoShadow p) :
    ∀ s ∈ fv x, s ∈ boundKeys b ∨ s ∈ fv p ∨
      ∃ k us, Occurs (node k us) p ∧ s ∈ Lang.captured k ∧ ¬ InlinedLet pred k us ∧
        x.size < (node k us).size := by
  induction h with
  | root => intro s hs; exact Or.inr (Or.inl hs)
  | @bind b v bind body hr hp ih =>
    intro s hs
    have hne : s ≠ .var v := by
      rintro rfl
      exact (hns.occurs hr.occurs).letOk hs
    have hlt := size_lt_of_mem (h := (Lang.letHead v : H)) (ts := [bind, body]) (t := bind) (by simp)
    rcases ih s (mem_fv.2 ⟨Or.inr ⟨bind, by simp, hs⟩, by rw [Lang.captured_let]; simpa using hne⟩)
      with h | h | ⟨k, us, h1, h2, h3, h4⟩
    · exact Or.inl h
    · exact Or.inr (Or.inl h)
    · exact Or.inr (Or.inr ⟨k, us, h1, h2, h3, by omega⟩)
  | @body b v bind body hr hp ih =>
    intro s hs
    have hlt := size_lt_of_mem (h := (Lang.letHead v : H)) (ts := [bind, body]) (t := body) (by simp)
    by_cases hne : s = .var v
    · subst hne; exact Or.inl (by simp [boundKeys])
    · rcases ih s (mem_fv.2 ⟨Or.inr ⟨body, by simp, hs⟩, by rw [Lang.captured_let]; simpa using hne⟩)
        with h | h | ⟨k, us, h1, h2, h3, h4⟩
      · refine Or.inl ?_
        unfold boundKeys at h ⊢
        simp only [List.map_cons, List.toFinset_cons, Finset.mem_insert]
        exact Or.inr h
      · exact Or.inr (Or.inl h)
      · exact Or.inr (Or.inr ⟨k, us, h1, h2, h3, by omega⟩)
  | @child b h ts t hr hn ht ih =>
    intro s hs
    have hlt := size_lt_of_mem (h := h) ht
    by_cases hc : s ∈ Lang.captured h
    · exact Or.inr (Or.inr ⟨h, ts, hr.occurs, hc, hn, hlt⟩)
    · rcases ih s (mem_fv.2 ⟨Or.inr ⟨t, ht, hs⟩, hc⟩) with h | h | ⟨k, us, h1, h2, h3, h4⟩
      · exact Or.inl h
      · exact Or.inr (Or.inl h)
      · exact Or.inr (Or.inr ⟨k, us, h1, h2, h3, by omega⟩)

/-- The result of inlining depends on the bound variables that are free in the term only. -/
theorem inlineGo_congr (pred : Term H → Bool) (t : Term H) : NoShadow t →
    ∀ b b' : List (Nat × Term H),
    (∀ v, Sym.var v ∈ fv t → lookup v b = lookup v b') →
    Disjoint (binders t) (boundKeys b ∪ boundKeys b') →
    inlineGo pred b t = inlineGo pred b' t := by
  induction t using ind with
  | step h ts ih =>
    intro hns b b' hb hd
    by_cases hil : InlinedLet pred h ts
    · obtain ⟨v, bind, body, rfl, rfl, hp⟩ := hil
      rw [inlineGo_let hp, inlineGo_let hp]
      have hbind : inlineGo pred b bind = inlineGo pred b' bind := by
        refine ih bind (by simp) (hns.children _ (by simp)) b b' ?_
          (Finset.disjoint_of_subset_left (binders_child_subset (by simp)) hd)
        intro w hw
        refine hb w (mem_fv.2 ⟨Or.inr ⟨bind, by simp, hw⟩, ?_⟩)
        rw [Lang.captured_let, Finset.mem_singleton]
        intro e; rw [e] at hw; exact hns.letOk hw
      rw [hbind]
      refine ih body (by simp) (hns.children _ (by simp)) _ _ ?_ ?_
      · intro w hw
        unfold lookup
        split_ifs with hwv
        · rfl
        · refine hb w (mem_fv.2 ⟨Or.inr ⟨body, by simp, hw⟩, ?_⟩)
          rw [Lang.captured_let, Finset.mem_singleton]
          intro e; cases e; exact hwv rfl
      · rw [Finset.disjoint_left]
        intro s hs hk
        have hsv : s ≠ .var v := by
          rintro rfl
          exact Finset.disjoint_left.1 (hns.disjoint body (by simp))
            (by rw [Lang.captured_let]; simp) hs
        have : s ∈ boundKeys b ∪ boundKeys b' := by
          unfold boundKeys at hk ⊢
          simp only [List.map_cons, List.toFinset_cons, Finset.mem_union, Finset.mem_insert] at hk ⊢
          rcases hk with (hk | hk) | (hk | hk)
          · exact absurd hk hsv
          · exact Or.inl hk
          · exact absurd hk hsv
          · exact Or.inr hk
        exact Finset.disjoint_left.1 hd (binders_child_subset (by simp) hs) this
    · have hch : ∀ t ∈ ts, inlineGo pred b t = inlineGo pred b' t := by
        intro t ht
        refine ih t ht (hns.children t ht) b b' ?_
          (Finset.disjoint_of_subset_left (binders_child_subset ht) hd)
        intro w hw
        by_cases hc : Sym.var w ∈ Lang.captured h
        · have h1 : Sym.var w ∉ boundKeys b ∪ boundKeys b' := fun hk =>
            Finset.disjoint_left.1 hd (captured_subset_binders hc) hk
          rw [Finset.mem_union, not_or] at h1
          rw [lookup_none_boundKeys.2 h1.1, lookup_none_boundKeys.2 h1.2]
        · exact hb w (mem_fv.2 ⟨Or.inr ⟨t, ht, hw⟩, hc⟩)
      rw [inlineGo_rest hil, inlineGo_rest hil, List.map_congr_left hch]
      rcases hs : Lang.symbol h with _ | (v | i)
      · rfl
      · have : lookup v b = lookup v b' := by
          refine hb v (mem_fv.2 ⟨Or.inl hs, ?_⟩)
          rw [Lang.captured_symbol h _ hs]; simp
        simp only [this]
      · rfl

/-- The binders of a visited term are not bound variables. -/
theorem Reached.disjoint {b : List (Nat × Term H)} {x : Term H} (h : Reached pred p b x)
    (hu : UniqueBinders p) : Disjoint (binders x) (boundKeys b) := by
  rw [Finset.disjoint_left]
  intro s hs hk
  cases s with
  | idx i => simp [boundKeys] at hk
  | var v =>
    have : lookup v b ≠ none := fun hn => lookup_none_boundKeys.1 hn hk
    obtain ⟨y, hy⟩ := Option.ne_none_iff_exists'.1 this
    obtain ⟨b0, bind, body, h1, h2, h3, h4⟩ := h.origin v y hy
    obtain ⟨k, us, ho, hc⟩ := mem_binders_iff.1 hs
    have := hu.uniq _ _ _ _ _ h1.occurs (ho.trans h.occurs)
      (by rw [Lang.captured_let]; simp) hc
    have := ho.size_le
    simp_all
    omega

/-- Two visits of a term agree on the definitions of its free variables, if the definitions of
larger lets are visited coherently. -/
theorem Reached.agree (hu : UniqueBinders p) (hns : NoShadow p) {x : Term H}
    {b b' : List (Nat × Term H)} (hr : Reached pred p b x) (hr' : Reached pred p b' x)
    (A : ∀ v bind body c c', x.size < (node (Lang.letHead v : H) [bind, body]).size →
      Reached pred p c (node (Lang.letHead v) [bind, body]) →
      Reached pred p c' (node (Lang.letHead v) [bind, body]) → pred bind = true →
      inlineGo pred c bind = inlineGo pred c' bind) :
    ∀ v, Sym.var v ∈ fv x → lookup v b = lookup v b' := by
  intro v hv
  have side : ∀ (c : List (Nat × Term H)), Reached pred p c x → ∀ y, lookup v c = some y →
      ∀ c' : List (Nat × Term H), Reached pred p c' x → lookup v c' = some y := by
    intro c hc y hy c' hc'
    obtain ⟨b0, bind, body, h1, h2, h3, h4⟩ := hc.origin v y hy
    have hcap : Sym.var v ∈ Lang.captured (Lang.letHead v : H) := by
      rw [Lang.captured_let]; simp
    have hmem : lookup v c' ≠ none := by
      intro hn
      rcases hc'.free hns (.var v) hv with hk | hk | ⟨k, us, h5, h6, h7, _⟩
      · exact lookup_none_boundKeys.1 hn hk
      · exact Finset.disjoint_left.1 hu.closed
          (mem_binders_iff.2 ⟨_, _, h1.occurs, hcap⟩) hk
      · have := hu.uniq _ _ _ _ _ h1.occurs h5 hcap h6
        cases this
        exact h7 ⟨v, bind, body, rfl, rfl, h2⟩
    obtain ⟨y', hy'⟩ := Option.ne_none_iff_exists'.1 hmem
    obtain ⟨b1, bind', body', k1, k2, k3, k4⟩ := hc'.origin v y' hy'
    have he := hu.uniq _ _ _ _ _ h1.occurs k1.occurs hcap hcap
    cases he
    rw [hy', h3, k3]
    congr 1
    exact A v bind body b1 b0 h4 k1 h1 h2
  rcases hl : lookup v b with _ | y
  · rcases hl' : lookup v b' with _ | y'
    · rfl
    · rw [side b' hr' y' hl' b hr] at hl; cases hl
  · exact (side b hr y hl b' hr').symm

theorem Reached.coherent_bind (hu : UniqueBinders p) (hns : NoShadow p) :
    ∀ (n : Nat) (v : Nat) (bind body : Term H) (c c' : List (Nat × Term H)),
      p.size - (node (Lang.letHead v : H) [bind, body]).size ≤ n →
      Reached pred p c (node (Lang.letHead v) [bind, body]) →
      Reached pred p c' (node (Lang.letHead v) [bind, body]) → pred bind = true →
      inlineGo pred c bind = inlineGo pred c' bind := by
  intro n
  induction n using Nat.strong_induction_on with
  | _ n ih =>
    intro v bind body c c' hn hr hr' hp
    refine inlineGo_congr pred bind (hns.occurs (Reached.bind hr hp).occurs) c c' ?_ ?_
    · intro w hw
      have hwne : Sym.var w ≠ .var v := by
        intro e; rw [e] at hw; exact (hns.occurs hr.occurs).letOk hw
      have hwL : Sym.var w ∈ fv (node (Lang.letHead v) [bind, body]) :=
        mem_fv.2 ⟨Or.inr ⟨bind, by simp, hw⟩, by rw [Lang.captured_let]; simpa using hwne⟩
      refine Reached.agree hu hns hr hr' ?_ w hwL
      intro v' bind' body' d d' hlt hd hd' hp'
      have h1 := hd.occurs.size_le
      have h2 := hr.occurs.size_le
      exact ih (p.size - (node (Lang.letHead v' : H) [bind', body']).size) (by omega)
        v' bind' body' d d' (le_refl _) hd hd' hp'
    · rw [Finset.disjoint_union_right]
      exact ⟨(Reached.bind hr hp).disjoint hu, (Reached.bind hr' hp).disjoint hu⟩

/-- Visiting a term twice gives the same result: bound variables always stand for the same
definition. -/
theorem Reached.coherent (hu : UniqueBinders p) (hns : NoShadow p) {x : Term H}
    {b b' : List (Nat × Term H)} (hr : Reached pred p b x) (hr' : Reached pred p b' x) :
    inlineGo pred b x = inlineGo pred b' x := by
  refine inlineGo_congr pred x (hns.occurs hr.occurs) b b' ?_ ?_
  · exact Reached.agree hu hns hr hr' (fun v bind body c c' _ h1 h2 hp =>
      Reached.coherent_bind hu hns _ v bind body c c' (le_refl _) h1 h2 hp)
  · rw [Finset.disjoint_union_right]
    exact ⟨hr.disjoint hu, hr'.disjoint hu⟩

/-! ### The table does not change the result -/

/-- Every entry of the table is the result of a visit. -/
def MemoOk (pred : Term H → Bool) (p : Term H) (T : Memo H) : Prop :=
  ∀ x y, (x, y) ∈ T → ∃ b, Reached pred p b x ∧ y = inlineGo pred b x

theorem inlineMemoGo_node (pred : Term H → Bool) (h : H) (ts : List (Term H))
    (b : List (Nat × Term H)) (T : Memo H) :
    inlineMemoGo pred b T (node h ts) =
      match lookup (node h ts) T with
      | some r => (r, T)
      | none =>
        let r := memoStep pred h (ts.map (fun t => (t, fun b T => inlineMemoGo pred b T t))) b T
        (r.1, (node h ts, r.1) :: r.2) := by
  unfold inlineMemoGo
  rw [para_node]
  unfold memoAlg
  rw [map_fst_para]

theorem memoChildren_ok (pred : Term H → Bool) (b : List (Nat × Term H)) :
    ∀ (ts : List (Term H)) (T : Memo H), MemoOk pred p T → (∀ t ∈ ts, Reached pred p b t) →
      (∀ t ∈ ts, ∀ T, MemoOk pred p T → ∀ b, Reached pred p b t →
        (inlineMemoGo pred b T t).1 = inlineGo pred b t ∧
          MemoOk pred p (inlineMemoGo pred b T t).2) →
      (memoChildren b (ts.map (fun t => (t, fun b T => inlineMemoGo pred b T t))) T).1 =
        ts.map (inlineGo pred b) ∧
      MemoOk pred p
        (memoChildren b (ts.map (fun t => (t, fun b T => inlineMemoGo pred b T t))) T).2 := by
  intro ts
  induction ts with
  | nil => intro T hT _ _; exact ⟨rfl, hT⟩
  | cons t ts ih =>
    intro T hT hr hrec
    obtain ⟨h1, h2⟩ := hrec t List.mem_cons_self T hT b (hr t List.mem_cons_self)
    obtain ⟨h3, h4⟩ := ih _ h2 (fun x hx => hr x (List.mem_cons_of_mem _ hx))
      (fun x hx => hrec x (List.mem_cons_of_mem _ hx))
    simp only [List.map_cons, memoChildren]
    exact ⟨by rw [h1, h3], h4⟩

theorem inlineMemoGo_ok (hu : UniqueBinders p) (hns : NoShadow p) (pred : Term H → Bool)
    (x : Term H) : ∀ (T : Memo H), MemoOk pred p T → ∀ b, Reached pred p b x →
      (inlineMemoGo pred b T x).1 = inlineGo pred b x ∧
        MemoOk pred p (inlineMemoGo pred b T x).2 := by
  induction x using ind with
  | step h ts ih =>
    intro T hT b hr
    rw [inlineMemoGo_node]
    cases hl : lookup (node h ts) T with
    | some r =>
      obtain ⟨b', hb', rfl⟩ := hT _ _ (lookup_mem hl)
      exact ⟨Reached.coherent hu hns hb' hr, hT⟩
    | none =>
      simp only
      suffices Hs : (memoStep pred h (ts.map (fun t => (t, fun b T => inlineMemoGo pred b T t))) b T).1
          = inlineGo pred b (node h ts) ∧ MemoOk pred p
          (memoStep pred h (ts.map (fun t => (t, fun b T => inlineMemoGo pred b T t))) b T).2 by
        refine ⟨Hs.1, ?_⟩
        intro y z hm
        rcases List.mem_cons.1 hm with he | hm
        · cases he; exact ⟨b, hr, Hs.1⟩
        · exact Hs.2 y z hm
      by_cases hil : InlinedLet pred h ts
      · obtain ⟨v, bind, body, rfl, rfl, hp⟩ := hil
        rw [inlineGo_let hp]
        simp only [memoStep, Lang.letVar_letHead, List.map_cons, List.map_nil, hp, if_true]
        obtain ⟨h1, h2⟩ := ih bind (by simp) T hT b (.bind hr hp)
        have := ih body (by simp) _ h2 _ (.body hr hp)
        rw [h1]; exact this
      · have hrest : memoStep pred h (ts.map (fun t => (t, fun b T => inlineMemoGo pred b T t))) b T =
            memoRest b h (ts.map (fun t => (t, fun b T => inlineMemoGo pred b T t))) T := by
          unfold memoStep
          split
          · rename_i v bind body hv hfs
            split_ifs with hp
            · exfalso
              apply hil
              match ts, hfs with
              | [c, d], hfs =>
                simp only [List.map_cons, List.map_nil, List.cons.injEq, and_true] at hfs
                refine ⟨v, c, d, Lang.letVar_inj h v hv, rfl, ?_⟩
                rw [← hfs.1] at hp; exact hp
            · rw [hfs]
          · rfl
        rw [hrest, inlineGo_rest hil]
        obtain ⟨h1, h2⟩ := memoChildren_ok pred b ts T hT (fun t ht => .child hr hil ht)
          (fun t ht T hT b hb => ih t ht T hT b hb)
        unfold memoRest
        rcases hs : Lang.symbol h with _ | (v | i)
        · simp only [h1]; exact ⟨trivial, h2⟩
        · cases hl' : lookup v b with
          | some u => simp only [hl']; exact ⟨trivial, hT⟩
          | none => simp only [hl', h1]; exact ⟨trivial, h2⟩
        · simp only [h1]; exact ⟨trivial, h2⟩

/-- With uniquely bound symbols, the memo table of `inline` is invisible. -/
theorem inlineMemo_eq (hu : UniqueBinders p) (hns : NoShadow p) (r : Bool) :
    inlineMemo r p = inline r p :=
  (inlineMemoGo_ok hu hns _ p [] (by intro x y h; cases h) [] .root).1

/-! ### Inlining keeps binders unique -/

/-- Symbols that occur in replacement terms are in scope outside the current position. -/
theorem Reached.range_free {b : List (Nat × Term H)} {x : Term H} (h : Reached pred p b x)
    (hns : NoShadow p) : ∀ s ∈ rangeFv b, s ∈ fv p ∨
      ∃ k us, Occurs (node k us) p ∧ s ∈ Lang.captured k ∧ ¬ InlinedLet pred k us ∧
        x.size < (node k us).size := by
  induction h with
  | root => intro s hs; simp [rangeFv] at hs
  | @bind b v bind body hr hp ih =>
    intro s hs
    have hlt := size_lt_of_mem (h := (Lang.letHead v : H)) (ts := [bind, body]) (t := bind) (by simp)
    rcases ih s hs with h | ⟨k, us, h1, h2, h3, h4⟩
    · exact Or.inl h
    · exact Or.inr ⟨k, us, h1, h2, h3, by omega⟩
  | @body b v bind body hr hp ih =>
    intro s hs
    have hlt := size_lt_of_mem (h := (Lang.letHead v : H)) (ts := [bind, body]) (t := body) (by simp)
    have old : s ∈ rangeFv b → s ∈ fv p ∨ ∃ k us, Occurs (node k us) p ∧ s ∈ Lang.captured k ∧
        ¬ InlinedLet pred k us ∧ body.size < (node k us).size := by
      intro hs
      rcases ih s hs with h | ⟨k, us, h1, h2, h3, h4⟩
      · exact Or.inl h
      · exact Or.inr ⟨k, us, h1, h2, h3, by omega⟩
    obtain ⟨q, hq, hs⟩ := mem_rangeFv.1 hs
    rcases List.mem_cons.1 hq with rfl | hq
    · rcases Finset.mem_union.1 (fv_inlineGo pred bind (hns.occurs (Reached.bind hr hp).occurs) b hs)
        with h1 | h1
      · rw [Finset.mem_sdiff] at h1
        have hne : s ≠ .var v := by
          rintro rfl
          exact (hns.occurs hr.occurs).letOk h1.1
        rcases hr.free hns s (mem_fv.2 ⟨Or.inr ⟨bind, by simp, h1.1⟩, by
          rw [Lang.captured_let]; simpa using hne⟩) with h | h | ⟨k, us, k1, k2, k3, k4⟩
        · exact absurd h h1.2
        · exact Or.inl h
        · exact Or.inr ⟨k, us, k1, k2, k3, by omega⟩
      · exact old h1
    · exact old (mem_rangeFv.2 ⟨q, hq, hs⟩)
  | @child b h ts t hr hn ht ih =>
    intro s hs
    have hlt := size_lt_of_mem (h := h) ht
    rcases ih s hs with h | ⟨k, us, h1, h2, h3, h4⟩
    · exact Or.inl h
    · exact Or.inr ⟨k, us, h1, h2, h3, by omega⟩

/-- Every node of the inlined program comes from a visited node. -/
theorem occurs_inlineGo (pred : Term H → Bool) (x : Term H) : ∀ b, Reached pred p b x →
    (∀ q ∈ b, ∀ k us, Occurs (node k us) q.2 → ∃ c ts, Reached pred p c (node k ts) ∧
      ¬ InlinedLet pred k ts ∧ us = ts.map (inlineGo pred c)) →
    ∀ k us, Occurs (node k us) (inlineGo pred b x) → ∃ c ts, Reached pred p c (node k ts) ∧
      ¬ InlinedLet pred k ts ∧ us = ts.map (inlineGo pred c) := by
  induction x using ind with
  | step h ts ih =>
    intro b hr hb k us ho
    by_cases hil : InlinedLet pred h ts
    · obtain ⟨v, bind, body, rfl, rfl, hp⟩ := hil
      rw [inlineGo_let hp] at ho
      refine ih body (by simp) _ (.body hr hp) ?_ k us ho
      intro q hq k us hq'
      rcases List.mem_cons.1 hq with rfl | hq
      · exact ih bind (by simp) b (.bind hr hp) hb k us hq'
      · exact hb q hq k us hq'
    · rcases inlineGo_cases hil b with ⟨v, u, hsym, hl, he⟩ | ⟨hsym, he⟩
      · rw [he] at ho
        exact hb _ (lookup_mem hl) k us ho
      · rw [he] at ho
        cases ho with
        | refl => exact ⟨b, ts, hr, hil, rfl⟩
        | child ht ho =>
          obtain ⟨t, ht', rfl⟩ := List.mem_map.1 ht
          exact ih t ht' b (.child hr hil ht') hb k us ho

theorem fv_inline_subset (hns : NoShadow p) (r : Bool) : fv (inline r p) ⊆ fv p := by
  intro s hs
  rcases Finset.mem_union.1 (fv_inlineGo _ p hns [] hs) with h | h
  · exact (Finset.mem_sdiff.1 h).1
  · simp [rangeFv] at h

theorem inline_uniqueBinders (hu : UniqueBinders p) (hns : NoShadow p) (r : Bool) :
    UniqueBinders (inline r p) := by
  have hocc := occurs_inlineGo (p := p) (inlinePred r) p [] .root (by intro q hq; cases hq)
  refine ⟨?_, ?_, ?_⟩
  · intro h ts k us s h1 h2 hc1 hc2
    obtain ⟨c, ts', hr, _, rfl⟩ := hocc h ts h1
    obtain ⟨d, us', hr', hil, rfl⟩ := hocc k us h2
    have he := hu.uniq _ _ _ _ _ hr.occurs hr'.occurs hc1 hc2
    cases he
    congr 1
    refine List.map_congr_left (fun t ht => ?_)
    exact Reached.coherent hu hns (.child hr hil ht) (.child hr' hil ht)
  · rw [Finset.disjoint_left]
    intro s hb hf
    obtain ⟨k, us, ho, hc⟩ := mem_binders_iff.1 hb
    obtain ⟨c, ts', hr, _, rfl⟩ := hocc k us ho
    exact Finset.disjoint_left.1 hu.closed (mem_binders_iff.2 ⟨_, _, hr.occurs, hc⟩)
      (fv_inline_subset hns r hf)
  · intro h ts s ho hc i j a b hi hj ha hb
    obtain ⟨c, ts', hr, hil, rfl⟩ := hocc h ts ho
    have back : ∀ (i : Nat) (a : Term H), (ts'.map (inlineGo (inlinePred r) c))[i]? = some a →
        s ∈ fv a → ∃ a', ts'[i]? = some a' ∧ s ∈ fv a' := by
      intro i a hi ha
      rw [List.getElem?_map, Option.map_eq_some_iff] at hi
      obtain ⟨a', hi, rfl⟩ := hi
      refine ⟨a', hi, ?_⟩
      have hmem := List.mem_of_getElem? hi
      rcases Finset.mem_union.1 (fv_inlineGo _ a' (hns.occurs (Reached.child hr hil hmem).occurs) c ha)
        with h1 | h1
      · exact (Finset.mem_sdiff.1 h1).1
      · exfalso
        rcases hr.range_free hns s h1 with h2 | ⟨k, us, k1, k2, k3, k4⟩
        · exact Finset.disjoint_left.1 hu.closed (mem_binders_iff.2 ⟨_, _, hr.occurs, hc⟩) h2
        · have := hu.uniq _ _ _ _ _ hr.occurs k1 hc k2
          rw [← this] at k4
          omega
    obtain ⟨a', hi', ha'⟩ := back i a hi ha
    obtain ⟨b', hj', hb'⟩ := back j b hj hb
    exact hu.single h ts' s hr.occurs hc i j a' b' hi' hj' ha' hb'

end Verif.Midend
