import Verif.Codegen.Broadcast

/-! Evaluation of `Axial.along`. -/

set_option linter.unusedSectionVars false

namespace Verif.Codegen
open Verif.Phi Verif.Term Verif.Yarr Verif.Arr
variable {F : Type} [FloatOps F] {J : YExt F} {env : Env (YVal F)}

theorem mk?_eq_some {axes : List Nat} {e : YExpr F} {x : Axial F} (h : Axial.mk? axes e = some x) :
    x = ⟨axes, e⟩ ∧ axes.Nodup ∧ ∃ τ, Yarr.typeOf e = some τ ∧ ∀ a ∈ τ, axes.length ≤ a.rank := by
  unfold Axial.mk? at h
  split at h
  · rename_i τ hτ
    split at h
    · rename_i hc
      cases h
      exact ⟨rfl, hc.1, τ, hτ, hc.2⟩
    · cases h
  · cases h

theorem swapAt_map {β γ : Type} (f : β → γ) (l : List β) (t : List γ) {i j : Nat} (hi : i < l.length)
    (hj : j < l.length) (d : β) (e : γ) :
    swapAt (l.map f ++ t) i j e = (swapAt l i j d).map f ++ t := by
  unfold swapAt
  have h1 : ∀ k < l.length, (l.map f ++ t).getD k e = f (l.getD k d) := by
    intro k hk
    rw [List.getD_eq_getElem?_getD, List.getElem?_append_left (by simpa using hk), List.getElem?_map,
      List.getElem?_eq_getElem hk, List.getD_eq_getElem?_getD, List.getElem?_eq_getElem hk]
    rfl
  rw [h1 i hi, h1 j hj, List.set_append_left _ _ (by simpa using hi),
    List.set_append_left _ _ (by simpa using hj), List.map_set, List.map_set]

/-- The last axis exchanged with the given one. -/
theorem swapAt_last {axes : List Nat} (hn : axes.Nodup) {index : Nat} (h : index ∈ axes) :
    ∃ front, swapAt axes (axes.idxOf index) (axes.length - 1) 0 = front ++ [index] ∧
      (front ++ [index]).Perm axes := by
  obtain ⟨l₁, l₂, rfl⟩ := List.append_of_mem h
  have hnot : index ∉ l₁ := fun h1 => (List.nodup_append.1 hn).2.2 index h1 index (by simp) rfl
  have hidx : (l₁ ++ index :: l₂).idxOf index = l₁.length := by
    rw [List.idxOf_append_of_notMem hnot]; simp
  rw [hidx]
  rcases List.eq_nil_or_concat l₂ with rfl | ⟨m, z, rfl⟩
  · refine ⟨l₁, ?_, List.Perm.refl _⟩
    unfold swapAt
    have : (l₁ ++ [index]).length - 1 = l₁.length := by simp
    rw [this]
    simp
  · rw [List.concat_eq_append]
    refine ⟨l₁ ++ z :: m, ?_, ?_⟩
    · unfold swapAt
      have hlen : (l₁ ++ index :: (m ++ [z])).length - 1 = (l₁ ++ index :: m).length := by simp
      have e1 : l₁ ++ index :: (m ++ [z]) = (l₁ ++ index :: m) ++ [z] := by simp
      rw [hlen, NArr.getD_mid rfl]
      have e2 : (l₁ ++ index :: (m ++ [z])).getD (l₁ ++ index :: m).length 0 = z := by
        rw [e1]; exact NArr.getD_mid rfl
      rw [e2, NArr.set_mid rfl]
      have e3 : l₁ ++ z :: (m ++ [z]) = (l₁ ++ z :: m) ++ z :: [] := by simp
      rw [e3, NArr.set_mid (by simp)]
    · rw [List.append_assoc, List.cons_append]
      refine List.Perm.append_left l₁ ?_
      exact ((List.perm_append_singleton index m).cons z).trans ((List.Perm.swap index z m).trans
        ((List.perm_append_singleton z m).symm.cons index))

theorem range_axes {axes : List Nat} (hn : axes.Nodup) (k : Nat) :
    List.range (axes.length + k) = axes.map (axes.idxOf ·) ++ (List.range k).map (axes.length + ·) := by
  rw [List.range_add]
  congr 1
  refine List.ext_getElem (by simp) fun i h1 h2 => ?_
  simp only [List.length_map] at h2
  simp [hn.idxOf_getElem i h2]

theorem map_getD_idxOf {l axes : List Nat} (h : ∀ x ∈ l, x ∈ axes) :
    (l.map (axes.idxOf ·)).map (fun k => axes.getD k 0) = l := by
  rw [List.map_map]
  conv_rhs => rw [← List.map_id l]
  refine List.map_congr_left fun x hx => ?_
  have := List.idxOf_lt_length_of_mem (h x hx)
  simp [List.getD_eq_getElem?_getD]
  rw [List.getElem?_eq_getElem this]
  simp

/-- What `along` gives: the axis of the index follows the remaining free axes. -/
structure AlongSpec (x : Axial F) (index n : Nat) (z : Axial F) : Prop where
  nodup : z.axes.Nodup
  notMem : index ∉ z.axes
  mem : ∀ i, i ∈ z.axes ↔ i ∈ x.axes ∧ i ≠ index

/-- Evaluation of `along`. -/
theorem along_eval {x z : Axial F} {index : Nat} {size : YExpr F} {a : A F} {σ : Nat → Nat} {s : List Nat}
    (hz : x.along index size = some z) (hn : x.axes.Nodup) (he : Yarr.eval J x.expr env = some (.arr a))
    (hr : RankOk J env x.expr) (hs : a.shape = x.axes.map σ ++ s)
    (hsz : EvalsInt J env size (σ index)) (hszr : RankOk J env size) :
    AlongSpec x index (σ index) z ∧ RankOk J env z.expr ∧
      ∃ b, Yarr.eval J z.expr env = some (.arr b) ∧ b.shape = z.axes.map σ ++ σ index :: s ∧
      ∀ (ρ : Nat → Nat) (jx : List Nat), (∀ i ∈ z.axes, ρ i < σ i) → ρ index < σ index → InRange s jx →
        b.get? (z.axes.map ρ ++ ρ index :: jx) = a.get? (x.axes.map ρ ++ jx) := by
  unfold Axial.along at hz
  cases hrk : rankOf x.expr with
  | none => rw [hrk] at hz; cases hz
  | some r =>
    rw [hrk] at hz
    simp only [Option.bind_some] at hz
    have har := hr.rankOf he hrk
    have hrs : r = x.axes.length + s.length := by
      rw [← har]; unfold NArr.rank; rw [hs]; simp
    rw [if_pos (by omega)] at hz
    split at hz
    · rename_i hmem
      obtain ⟨front, hsw, hperm⟩ := swapAt_last hn hmem
      have hlt := List.idxOf_lt_length_of_mem hmem
      have hpi : swapAt (List.range r) (x.axes.idxOf index) (x.axes.length - 1) 0 =
          axisPerm x.axes (front ++ [index]) s.length := by
        rw [hrs, range_axes hn, swapAt_map (x.axes.idxOf ·) x.axes _ hlt (by omega) 0 0, hsw]
        rfl
      have hfl : front.length = x.axes.length - 1 := by have := hperm.length_eq; simp at this; omega
      rw [hpi] at hz
      have htake : (axisPerm x.axes (front ++ [index]) s.length).take (x.axes.length - 1) =
          front.map (x.axes.idxOf ·) := by
        unfold axisPerm
        rw [List.map_append, List.append_assoc, List.take_left' (by simpa using hfl)]
      rw [htake, map_getD_idxOf (fun y hy => hperm.mem_iff.1 (by simp [hy]))] at hz
      obtain ⟨rfl, hnd, _⟩ := mk?_eq_some hz
      obtain ⟨b, hb, hbp⟩ := transpose_placed hn hperm hs
      have hnd' : (front ++ [index]).Nodup := hperm.nodup_iff.2 hn
      have hni : index ∉ front := fun h => (List.nodup_append.1 hnd').2.2 index h index (by simp) rfl
      refine ⟨⟨hnd, hni, fun i => ?_⟩, ?_, b, ?_, ?_, ?_⟩
      · constructor
        · intro hi
          exact ⟨hperm.mem_iff.1 (by simp [show i ∈ front from hi]), fun e => hni (e ▸ hi)⟩
        · rintro ⟨h1, h2⟩
          have := hperm.mem_iff.2 h1
          simp only [List.mem_append, List.mem_singleton] at this
          exact this.resolve_right h2
      · exact rankOk_node (by trivial) (by intro t ht; simp at ht; subst ht; exact hr)
      · rw [Yarr.eval_node]
        simp [Yarr.den, arr1, he, YVal.asArr, hb]
      · rw [hbp.shape]; simp
      · intro ρ jx h1 h2 hj
        have := hbp.get ρ jx (by
          intro y hy
          simp only [List.mem_append, List.mem_singleton] at hy
          rcases hy with hy | rfl
          · exact h1 y hy
          · exact h2) hj
        rw [← this]; simp
    · rename_i hmem
      obtain ⟨rfl, hnd, _⟩ := mk?_eq_some hz
      -- the new axis comes after the free ones
      have hinto : (x.axes ++ [index]).Nodup := by
        rw [List.nodup_append]
        exact ⟨hn, by simp, fun y hy w hw e => by simp at hw; subst hw e; exact hmem hy⟩
      have hfil : (x.axes ++ [index]).filter (fun y => decide (y ∈ x.axes)) = x.axes := by
        rw [List.filter_append, List.filter_cons_of_neg (by simpa using hmem), List.filter_nil,
          List.append_nil, List.filter_eq_self]
        simp
      have hself : Placed a a x.axes x.axes σ s := ⟨hs, fun _ _ _ _ => rfl⟩
      obtain ⟨t, ht, htp⟩ := unsqueeze_placed (a := a) (t := a) (axes := x.axes) (into := x.axes ++ [index])
        (P := [x.axes.length]) (q := fun y => decide (y ∈ x.axes)) (D := σ) (s := s) (by rw [hfil]; exact hself)
        (by simp) (by rw [hfil]; simp; omega) (by
          intro i y hy
          by_cases hi : i < x.axes.length
          · rw [List.getElem?_append_left hi] at hy
            have := List.mem_of_getElem? hy
            simp [this]; omega
          · have hlt := (List.getElem?_eq_some_iff.1 hy).1
            simp at hlt
            have : i = x.axes.length := by omega
            subst this
            simp at hy
            subst hy
            simp [hmem]) (by simp)
      obtain ⟨b, hb, hbp⟩ := repeat_placed (n := (σ index : Int)) htp hinto
        (i := x.axes.length) (x := index) (by simp) hmem (by simp [hmem]) (by omega)
      refine ⟨⟨hnd, hmem, fun i => ?_⟩, ?_, b, ?_, ?_, ?_⟩
      · exact ⟨fun h => ⟨h, fun e => hmem (e ▸ h)⟩, fun h => h.1⟩
      · exact rankOk_node (by trivial) (by
          intro u hu; simp at hu; rcases hu with rfl | rfl
          · exact hszr
          · exact rankOk_node (by trivial) (by intro u hu; simp at hu; subst hu; exact hr))
      · unfold EvalsInt at hsz
        rw [Yarr.eval_node]
        simp [Yarr.den, arr1, Yarr.eval_node, he, hsz, YVal.asArr, asSize_scalar, ht, hb]
      · rw [hbp.shape, List.map_append, List.append_assoc]
        congr 1
        · refine List.map_congr_left fun y hy => ?_
          have : y ≠ index := fun e => hmem (e ▸ hy)
          simp [this, hy]
        · simp
      · intro ρ jx h1 h2 hj
        have := hbp.get ρ jx (by
          intro y hy
          simp only [List.mem_append, List.mem_singleton] at hy
          rcases hy with hy | rfl
          · have hne : y ≠ index := fun e => hmem (e ▸ hy)
            simp only [hne, if_false, hy, decide_true, if_true]
            exact h1 y hy
          · simpa using h2) hj
        rw [← this]; simp

end Verif.Codegen
