import Verif.Backend.PrimsLe
import Verif.Codegen.Generated

/-! A condition under which the array backends agree on compiled code. -/

set_option linter.unusedSectionVars false

namespace Verif.Backend
open Verif.Phi Verif.Term Verif.Yarr Verif.Arr Verif.Midend Verif.Codegen
variable {F : Type}

/-- The reference primitives, restricted: only arrays that agree in the other dimensions are gathered, and
only arrays of floats that have elements and at most three dimensions are padded, in the middle dimension
(the list of widths is the same backwards). -/
def carefulPrims : Prims F where
  squeeze := NArr.squeeze
  unsqueeze := NArr.unsqueeze
  gather axis a b :=
    if a.rank = b.rank ∧ axis < a.rank ∧ a.shape.set axis 0 = b.shape.set axis 0 then a.gather axis b else none
  pad pads a :=
    if a.rank ≤ 3 ∧ a.shape.prod ≠ 0 ∧ floats a = true ∧ pads.reverse = pads then a.pad pads else none

theorem set_getD {s t : List Nat} {axis : Nat} (h : s.set axis 0 = t.set axis 0) (k : Nat) (hk : k ≠ axis) :
    s.getD k 0 = t.getD k 0 := by
  have := congrArg (fun l => l.getD k 0) h
  simpa [List.getD_eq_getElem?_getD, List.getElem?_set, Ne.symm hk] using this

variable [FloatOps F]

theorem padWith_scalars (pad : List (Int × Int) → A F → Option (A F)) (n p : Nat) (a : A F) (l r : Int) :
    padWith pad (putMask n p) (putMask n p) a [NArr.scalar (.i l), NArr.scalar (.i r)] =
      pad (NArr.putAt n p (l, r) (0, 0)) a := by
  unfold padWith
  rw [unmask_putMask, Option.bind_some, unmask_putMask, Option.bind_some]
  simp only [if_true, mapOpt_optSize_putAt, Option.bind_some, NArr.zip_putAt]
  congr 1
  simp [NArr.putAt]

theorem padWith_putMask {pad : List (Int × Int) → A F → Option (A F)} {n p : Nat} {a b : A F} {bs : List (A F)}
    (h : padWith pad (putMask n p) (putMask n p) a bs = some b) :
    ∃ l r, bs = [NArr.scalar (.i l), NArr.scalar (.i r)] := by
  have hnil : unmask (putMask n p) ([] : List (A F)) = none := by
    unfold putMask NArr.putAt
    rw [unmask_append, unmask_false]
    rfl
  have hput : ∀ x : A F, ∀ l, mapOpt optSize (NArr.putAt n p (some x) none) = some l →
      ∃ i, x = NArr.scalar (.i i) := by
    intro x l hl
    unfold NArr.putAt at hl
    rw [mapOpt_append, mapOpt_replicate (f := optSize) (x := none) (y := none) rfl] at hl
    simp only [Option.bind_some, mapOpt, optSize, asSize, Option.map_eq_some_iff, Option.bind_eq_some_iff] at hl
    obtain ⟨_, ⟨_, ⟨i, ⟨s, hs, hi⟩, _⟩, _⟩, _⟩ := hl
    refine ⟨i, ?_⟩
    rw [NArr.item_eq_some] at hs
    cases s <;> simp [scalInt] at hi
    rw [hs, hi]
  unfold padWith at h
  match bs with
  | [] => rw [hnil] at h; cases h
  | [x] => rw [unmask_putMask, Option.bind_some, hnil] at h; cases h
  | x :: y :: z :: bs =>
    rw [unmask_putMask, Option.bind_some, unmask_putMask, Option.bind_some] at h
    simp at h
  | [x, y] =>
    rw [unmask_putMask, Option.bind_some, unmask_putMask, Option.bind_some] at h
    simp only [if_true, Option.bind_eq_some_iff] at h
    obtain ⟨ls, hls, rs, hrs, h⟩ := h
    obtain ⟨l, rfl⟩ := hput x ls hls
    obtain ⟨r, rfl⟩ := hput y rs hrs
    exact ⟨l, r, rfl⟩

theorem pad_widths {pads : List (Int × Int)} {a b : A F} (h : a.pad pads = some b) :
    pads.length = a.rank ∧ ∀ p ∈ pads, 0 ≤ p.1 ∧ 0 ≤ p.2 := by
  unfold NArr.pad at h
  split at h
  · rename_i hc; exact ⟨hc.1, hc.2.1⟩
  · cases h

/-- Padding one axis: whatever `careful` gives, primitives give that agree with it on one padded axis. -/
theorem careful_pad {Q : Prims F} {n p : Nat} (hp : p < n)
    (hQ : ∀ (a : A F) l r, a.rank = n → 0 ≤ l → 0 ≤ r → a.rank ≤ 3 → a.shape.prod ≠ 0 → floats a = true →
      (NArr.putAt n p (l, r) (0, 0)).reverse = NArr.putAt n p (l, r) ((0, 0) : Int × Int) →
      Q.pad (NArr.putAt n p (l, r) (0, 0)) a = a.pad (NArr.putAt n p (l, r) (0, 0))) (a : A F) (bs : List (A F)) :
    Le (padWith carefulPrims.pad (putMask n p) (putMask n p) a bs) (padWith Q.pad (putMask n p) (putMask n p) a bs) := by
  intro b hb
  obtain ⟨l, r, rfl⟩ := padWith_putMask hb
  rw [padWith_scalars] at hb ⊢
  simp only [carefulPrims] at hb
  split at hb
  · rename_i hc
    obtain ⟨hw1, hw2⟩ := pad_widths hb
    rw [NArr.length_putAt hp] at hw1
    have hlr := hw2 (l, r) (by simp [NArr.putAt])
    rw [hQ a l r hw1.symm hlr.1 hlr.2 hc.1 hc.2.1 hc.2.2.1 hc.2.2.2, hb]
  · cases hb

theorem careful_numpy {h : Yarr.Head F} (hg : Generated h) : HeadLe (carefulPrims (F := F)) numpyPrims h := by
  cases h with
  | pad l r =>
    obtain ⟨n, p, hp, rfl, rfl⟩ := hg
    exact careful_pad hp (fun a l r hn hl hr _ hne hf _ => by subst hn; exact fastEdgePad_eq hp hne hf hl hr)
  | gather axis =>
    intro a b c hc
    simp only [carefulPrims] at hc
    split at hc
    · exact hc
    · cases hc
  | squeeze axes => exact fun a => Le.rfl
  | unsqueeze axes => exact fun a => Le.rfl
  | reduce x y axis => exact ⟨fun a => Le.rfl, fun a => Le.rfl⟩
  | _ => trivial

theorem careful_jax {h : Yarr.Head F} (hg : Generated h) : HeadLe (carefulPrims (F := F)) jaxPrims h := by
  cases h with
  | pad l r =>
    obtain ⟨n, p, hp, rfl, rfl⟩ := hg
    exact careful_pad hp (fun a l r _ _ _ _ _ _ _ => rfl)
  | gather axis =>
    intro a b c hc
    simp only [carefulPrims] at hc
    split at hc
    · exact hc
    · cases hc
  | squeeze axes => exact fun a => Le.rfl
  | unsqueeze axes => exact fun a => Le.rfl
  | reduce x y axis => exact ⟨fun a => Le.rfl, fun a => Le.rfl⟩
  | _ => trivial

theorem careful_torch {h : Yarr.Head F} (hg : Generated h) : HeadLe (carefulPrims (F := F)) torchPrims h := by
  cases h with
  | pad l r =>
    obtain ⟨n, p, hp, rfl, rfl⟩ := hg
    exact careful_pad hp (fun a l r hn _ _ h3 hne _ hrev => torchPad_eq _ a (by omega) h3 hne hrev)
  | gather axis =>
    intro a b c hc
    simp only [carefulPrims] at hc
    split at hc
    · rename_i h
      rw [← hc]
      exact torchGather_eq axis a b h.1 h.2.1 (set_getD h.2.2)
    · cases hc
  | squeeze axes =>
    obtain ⟨k, rfl⟩ := hg
    exact fun a => torchSqueeze_le k a
  | unsqueeze axes => exact fun a => Le.of_eq (torchUnsqueeze_eq axes hg a).symm
  | reduce x y axis =>
    exact ⟨fun a => Le.of_eq (torchUnsqueeze_eq [axis] (List.pairwise_singleton _ _) a).symm,
      fun a => torchSqueeze_le axis a⟩
  | _ => trivial

end Verif.Backend
