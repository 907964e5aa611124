import Verif.Codegen.Slices

/-! The reduction loop of the array backends on arrays computes, at every assignment of the indices, the reduction of
the slices. -/

set_option linter.unusedSectionVars false

namespace Verif.Codegen
open Verif.Phi Verif.Term Verif.Yarr Verif.Arr
open Verif.Backend (treeReduce treeLoop accStep batch everyOther)
variable {F : Type} [FloatOps F]
variable {S : Finset Sym} {σ : Nat → Nat} {axes : List Nat} {B : Nat}

theorem local_upd {β : Type} {f : (Nat → Nat) → β} (h : Local S f) (hB : Sym.idx B ∉ S) (ρ : Nat → Nat) (k : Nat) :
    f (upd ρ B k) = f ρ :=
  h _ _ fun j hj => by
    have hne : j ≠ B := fun e => hB (e ▸ hj)
    simp [upd, hne]

/-- One iteration of the loop on slices. -/
theorem treeLoop_step {α : Type} {op : α → α → Option α} {fuel : Nat} {a : α} {l : List α} (h : 1 < l.length) :
    treeLoop op (fuel + 1) a l = (accStep op a l).bind fun a' =>
      (batch op (everyOther l.dropLast) (everyOther l.tail)).bind fun l' => treeLoop op fuel a' l' := by
  conv_lhs => unfold treeLoop
  rw [if_pos h]

theorem red_loop (hσ : Positive (inScope S) σ) (hB : Sym.idx B ∉ S) (hax : ∀ i ∈ axes, Sym.idx i ∈ S) {N : Nat}
    {rs : List Nat} {op : (Nat → Nat) → D F → D F → Option (D F)} (hop : Local S op)
    {XY : List (A F) → List (A F) → Option (List (A F))}
    (H : ∀ (m : Nat), 0 < m → ∀ (p q : (Nat → Nat) → Option (D F)) (as bs : List (A F)) (ss tt : List (List Nat)),
      Local (insert (.idx B) S) p → Local (insert (.idx B) S) q → as.length = N → bs.length = N →
      Holds (insert (.idx B) S) (upd σ B m) (axes ++ [B]) as ss p →
      Holds (insert (.idx B) S) (upd σ B m) (axes ++ [B]) bs tt q →
      (∀ ρ, Valid (inScope (insert (.idx B) S)) (upd σ B m) ρ → ∃ w, ((p ρ).bind fun a => (q ρ).bind (op ρ a)) = some w) →
      ∃ cs us, XY as bs = some cs ∧ cs.length = N ∧ cs.map NArr.rank = rs ∧
        Holds (insert (.idx B) S) (upd σ B m) (axes ++ [B]) cs us fun ρ => (p ρ).bind fun a => (q ρ).bind (op ρ a))
    (fuel : Nat) : ∀ (m : Nat) (acc : (Nat → Nat) → Option (D F)) (R : (Nat → Nat) → List (D F)) (as vals : List (A F))
      (ss tt : List (List Nat)), 0 < m → Local S acc → Local S R → as.length = N → vals.length = N →
      as.map NArr.rank = rs →
      Holds (insert (.idx B) S) (upd σ B 1) (axes ++ [B]) as ss acc →
      Holds (insert (.idx B) S) (upd σ B m) (axes ++ [B]) vals tt (fun ρ => (R ρ)[ρ B]?) →
      (∀ ρ, Valid (inScope S) σ ρ → (R ρ).length = m) →
      (∀ ρ, Valid (inScope S) σ ρ → ∃ w, ((acc ρ).bind fun a => treeLoop (op ρ) fuel a (R ρ)) = some w) →
      ∃ cs us, redLoop XY axes.length fuel m as vals = some cs ∧ cs.length = N ∧ cs.map NArr.rank = rs ∧
        Holds (insert (.idx B) S) (upd σ B 1) (axes ++ [B]) cs us fun ρ =>
          (acc ρ).bind fun a => treeLoop (op ρ) fuel a (R ρ) := by
  have hsub : S ⊆ insert (.idx B) S := Finset.subset_insert _ _
  induction fuel with
  | zero =>
    intro m acc R as vals ss tt hm _ _ _ _ _ _ _ _ hd
    obtain ⟨w, hw⟩ := hd _ (valid_zero hσ)
    obtain ⟨a, _, h⟩ := Option.bind_eq_some_iff.1 hw
    cases h
  | succ fuel ih =>
    intro m acc R as vals ss tt hm hla hlR hN hNv hrk hha hhv hlen hd
    have hRl : Local (insert (.idx B) S) fun ρ => (R ρ)[ρ B]? := fun ρ ρ' hρ => by
      dsimp only
      rw [hlR ρ ρ' fun i hi => hρ i (hsub hi), hρ B (Finset.mem_insert_self _ _)]
    -- one slice, combined with the accumulator
    have slice : ∀ k < m, (∀ ρ, Valid (inScope S) σ ρ → ∃ w,
          (((R ρ)[k]?).bind fun x => (acc ρ).bind (op ρ x)) = some w) →
        ∃ cs us, ((Phi.mapOpt (Yarr.oneSlice axes.length k) vals).bind fun l => XY l as) = some cs ∧ cs.length = N ∧
          cs.map NArr.rank = rs ∧ Holds (insert (.idx B) S) (upd σ B 1) (axes ++ [B]) cs us fun ρ =>
            ((R ρ)[k]?).bind fun x => (acc ρ).bind (op ρ x) := by
      intro k hk hdk
      obtain ⟨l, h1, h2, h3⟩ := hhv.oneSlice hB hax hk
      have h3 : Holds (insert (.idx B) S) (upd σ B 1) (axes ++ [B]) l tt fun ρ => (R ρ)[k]? := h3.congr fun ρ _ => by
        rw [local_upd hlR hB]; simp [upd]
      obtain ⟨cs, us, h4, h5, h6, h7⟩ := H 1 Nat.one_pos (fun ρ => (R ρ)[k]?) acc l as tt ss
        (fun ρ ρ' hρ => by dsimp only; rw [hlR ρ ρ' fun i hi => hρ i (hsub hi)]) (hla.mono hsub) (h2.trans hNv) hN h3 hha
        (fun ρ hρ => hdk ρ ((valid_batch hB).1 hρ).1)
      exact ⟨cs, us, by rw [h1]; exact h4, h5, h6, h7⟩
    unfold redLoop
    by_cases h1m : 1 < m
    · rw [if_pos h1m]
      have hstep : ∀ ρ, Valid (inScope S) σ ρ → ∃ a' l', ((acc ρ).bind fun a => accStep (op ρ) a (R ρ)) = some a' ∧
          batch (op ρ) (everyOther (R ρ).dropLast) (everyOther (R ρ).tail) = some l' ∧ ∃ w,
          treeLoop (op ρ) fuel a' l' = some w ∧ ((acc ρ).bind fun a => treeLoop (op ρ) (fuel + 1) a (R ρ)) = some w := by
        intro ρ hρ
        obtain ⟨w, hw⟩ := hd ρ hρ
        have hw' := hw
        obtain ⟨a, ha, hw⟩ := Option.bind_eq_some_iff.1 hw
        rw [treeLoop_step (by rw [hlen ρ hρ]; exact h1m)] at hw
        simp only [Option.bind_eq_some_iff] at hw
        obtain ⟨a', h1, l', h2, h3⟩ := hw
        exact ⟨a', l', by rw [ha]; exact h1, h2, w, h3, hw'⟩
      -- the accumulator
      obtain ⟨as', ss', ha1, ha2, ha3, ha4⟩ : ∃ as' ss', (if m % 2 = 1 then
          (Phi.mapOpt (Yarr.oneSlice axes.length (m - 1)) vals).bind fun l => XY l as else some as) = some as' ∧
          as'.length = N ∧ as'.map NArr.rank = rs ∧ Holds (insert (.idx B) S) (upd σ B 1) (axes ++ [B]) as' ss' fun ρ =>
            (acc ρ).bind fun a => accStep (op ρ) a (R ρ) := by
        by_cases hodd : m % 2 = 1
        · rw [if_pos hodd]
          have hval : ∀ ρ, Valid (inScope S) σ ρ → (((R ρ)[m - 1]?).bind fun x => (acc ρ).bind (op ρ x)) =
              (acc ρ).bind fun a => accStep (op ρ) a (R ρ) := by
            intro ρ hρ
            obtain ⟨w, hw⟩ := hd ρ hρ
            obtain ⟨a, ha, _⟩ := Option.bind_eq_some_iff.1 hw
            simp only [ha, Option.bind_some, accStep, hlen ρ hρ, if_pos hodd, List.getLast?_eq_getElem?]
          obtain ⟨cs, us, h1, h2, h3, h4⟩ := slice (m - 1) (by omega) (fun ρ hρ => by
            obtain ⟨a', l', h1, _⟩ := hstep ρ hρ
            exact ⟨a', (hval ρ hρ).trans h1⟩)
          exact ⟨cs, us, h1, h2, h3, h4.congr fun ρ hρ => hval ρ ((valid_batch hB).1 hρ).1⟩
        · rw [if_neg hodd]
          refine ⟨as, ss, rfl, hN, hrk, hha.congr fun ρ hρ => ?_⟩
          have hρ' := ((valid_batch hB).1 hρ).1
          cases acc ρ with
          | none => rfl
          | some a => simp only [Option.bind_some, accStep, hlen ρ hρ', if_neg hodd]
      rw [ha1, Option.bind_some]
      -- the slices
      obtain ⟨l, hl1, hl2, hl3⟩ := hhv.stride (c := m / 2) (st := 0) hB hax (fun j hj => by omega)
      obtain ⟨r, hr1, hr2, hr3⟩ := hhv.stride (c := m / 2) (st := 1) hB hax (fun j hj => by omega)
      rw [hl1, hr1, Option.bind_some, Option.bind_some]
      have hl3 : Holds (insert (.idx B) S) (upd σ B (m / 2)) (axes ++ [B]) l tt fun ρ => (R ρ)[0 + 2 * ρ B]? :=
        hl3.congr fun ρ _ => by rw [local_upd hlR hB]; simp [upd]
      have hr3 : Holds (insert (.idx B) S) (upd σ B (m / 2)) (axes ++ [B]) r tt fun ρ => (R ρ)[1 + 2 * ρ B]? :=
        hr3.congr fun ρ _ => by rw [local_upd hlR hB]; simp [upd]
      have hloc : ∀ st, Local (insert (.idx B) S) fun ρ => (R ρ)[st + 2 * ρ B]? := fun st ρ ρ' hρ => by
        dsimp only
        rw [hlR ρ ρ' fun i hi => hρ i (hsub hi), hρ B (Finset.mem_insert_self _ _)]
      let R' : (Nat → Nat) → List (D F) := fun ρ =>
        (batch (op ρ) (everyOther (R ρ).dropLast) (everyOther (R ρ).tail)).getD []
      have hval : ∀ ρ, Valid (inScope (insert (.idx B) S)) (upd σ B (m / 2)) ρ → ∃ w,
          (((R ρ)[0 + 2 * ρ B]?).bind fun a => ((R ρ)[1 + 2 * ρ B]?).bind (op ρ a)) = some w ∧ (R' ρ)[ρ B]? = some w := by
        intro ρ hρ
        obtain ⟨h1, h2⟩ := (valid_batch hB).1 hρ
        obtain ⟨a', l', _, h3, _⟩ := hstep ρ h1
        obtain ⟨h4, h5⟩ := batch_get h3
        obtain ⟨a, b, c, e1, e2, e3, e4⟩ := h5 (ρ B) (by rw [hlen ρ h1]; exact h2)
        refine ⟨c, by rw [Nat.zero_add, e1, e2]; exact e4, ?_⟩
        simp only [R', h3, Option.getD_some, e3]
      obtain ⟨vals', tt', hv1, hv2, hv3, hv4⟩ := H (m / 2) (by omega) _ _ l r tt tt (hloc 0) (hloc 1) (hl2.trans hNv)
        (hr2.trans hNv) hl3 hr3 (fun ρ hρ => by obtain ⟨w, hw, _⟩ := hval ρ hρ; exact ⟨w, hw⟩)
      rw [hv1, Option.bind_some]
      have hv4 : Holds (insert (.idx B) S) (upd σ B (m / 2)) (axes ++ [B]) vals' tt' fun ρ => (R' ρ)[ρ B]? :=
        hv4.congr fun ρ hρ => by obtain ⟨w, h1, h2⟩ := hval ρ hρ; rw [h1, h2]
      obtain ⟨cs, us, h1, h2, h3, h4⟩ := ih (m / 2) (fun ρ => (acc ρ).bind fun a => accStep (op ρ) a (R ρ)) R' as' vals' ss' tt'
        (by omega) (fun ρ ρ' hρ => by simp only [hla ρ ρ' hρ, hlR ρ ρ' hρ, hop ρ ρ' hρ])
        (fun ρ ρ' hρ => by simp only [R', hlR ρ ρ' hρ, hop ρ ρ' hρ]) ha2 hv2 ha3 ha4 hv4
        (fun ρ hρ => by
          obtain ⟨a', l', _, h3, _⟩ := hstep ρ hρ
          simp only [R', h3, Option.getD_some, (batch_get h3).1, hlen ρ hρ])
        (fun ρ hρ => by
          obtain ⟨a', l', h3, h4, w, h5, _⟩ := hstep ρ hρ
          exact ⟨w, by simp only [h3, R', h4, Option.getD_some, Option.bind_some, h5]⟩)
      refine ⟨cs, us, h1, h2, h3, h4.congr fun ρ hρ => ?_⟩
      obtain ⟨a', l', h3, h4, w, h5, h6⟩ := hstep ρ ((valid_batch hB).1 hρ).1
      rw [h6]
      simp only [h3, R', h4, Option.getD_some, Option.bind_some, h5]
    · have : m = 1 := by omega
      subst this
      rw [if_neg h1m, if_pos rfl]
      have hval : ∀ ρ, Valid (inScope S) σ ρ → (((R ρ)[0]?).bind fun x => (acc ρ).bind (op ρ x)) =
          (acc ρ).bind fun a => treeLoop (op ρ) (fuel + 1) a (R ρ) := by
        intro ρ hρ
        obtain ⟨x, hx⟩ := List.length_eq_one_iff.1 (hlen ρ hρ)
        rw [hx]
        cases acc ρ <;> simp [treeLoop]
      obtain ⟨cs, us, h1, h2, h3, h4⟩ := slice 0 Nat.one_pos (fun ρ hρ => by rw [hval ρ hρ]; exact hd ρ hρ)
      exact ⟨cs, us, h1, h2, h3, h4.congr fun ρ hρ => hval ρ ((valid_batch hB).1 hρ).1⟩

end Verif.Codegen
