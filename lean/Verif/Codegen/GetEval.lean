import Verif.Codegen.AlongEval
import Verif.Codegen.Broadcast

/-! Concatenation, `take` and `take_along_axis` by position. -/

set_option linter.unusedSectionVars false

namespace Verif.Codegen
open Verif.Phi Verif.Term Verif.Yarr Verif.Arr
variable {α : Type}

theorem clamp_self {s jx : List Nat} (hj : InRange s jx) :
    List.zipWith (fun d i => if d = 1 then 0 else i) s jx = jx := by
  induction s generalizing jx with
  | nil => rw [inRange_nil] at hj; subst hj; rfl
  | cons n s ih =>
    cases jx with
    | nil => rfl
    | cons i jx =>
      rw [inRange_cons] at hj
      rw [List.zipWith_cons_cons, ih hj.2]
      congr 1
      split <;> omega

/-- `numpy.concatenate` of two arrays along the axis after the first `p.length`. -/
theorem concat2_spec {a b : NArr α} {p s : List Nat} {m n : Nat} (ha : a.shape = p ++ m :: s)
    (hb : b.shape = p ++ n :: s) :
    ∃ c, NArr.concat p.length [a, b] = some c ∧ c.shape = p ++ (m + n) :: s ∧
      ∀ (ix : List Nat) (i : Nat) (jx : List Nat), InRange p ix → i < m + n → InRange s jx →
        c.get? (ix ++ i :: jx) = if i < m then a.get? (ix ++ i :: jx) else b.get? (ix ++ (i - m) :: jx) := by
  have hr : p.length < a.rank := by unfold NArr.rank; rw [ha]; simp
  have e : NArr.concat p.length [a, b] = NArr.concat2 p.length a b := by
    simp only [NArr.concat, loopOpt]
    cases NArr.concat2 p.length a b <;> rfl
  rw [e]
  unfold NArr.concat2
  rw [if_pos ⟨hr, by rw [ha, hb, NArr.set_mid rfl, NArr.set_mid rfl]⟩, ha, hb, NArr.set_mid rfl,
    NArr.getD_mid rfl, NArr.getD_mid rfl]
  have key : ∀ (ix : List Nat) (i : Nat) (jx : List Nat), InRange p ix →
      (if (ix ++ i :: jx).getD p.length 0 < m then a.get? (ix ++ i :: jx) else
        b.get? ((ix ++ i :: jx).set p.length ((ix ++ i :: jx).getD p.length 0 - m))) =
      if i < m then a.get? (ix ++ i :: jx) else b.get? (ix ++ (i - m) :: jx) := by
    intro ix i jx hix
    rw [NArr.getD_mid hix.length.symm, NArr.set_mid hix.length.symm]
  obtain ⟨c, hc, hcs, hcg⟩ := NArr.ofFn?_spec (s := p ++ (m + n) :: s) (f := fun ix =>
      if ix.getD p.length 0 < m then a.get? ix else
        b.get? (ix.set p.length (ix.getD p.length 0 - m))) (by
    intro ix hix
    obtain ⟨i₁, i, i₂, rfl, hl, h1, h2, h3⟩ := NArr.inRange_mid hix
    simp only [key i₁ i i₂ h1]
    split
    · rw [NArr.get?_isSome, ha, inRange_append hl.symm, inRange_cons]
      exact ⟨h1, by assumption, h3⟩
    · rw [NArr.get?_isSome, hb, inRange_append hl.symm, inRange_cons]
      exact ⟨h1, by omega, h3⟩)
  refine ⟨c, hc, hcs, fun ix i jx hix hi hj => ?_⟩
  rw [hcg _ (by rw [inRange_append hix.length, inRange_cons]; exact ⟨hix, hi, hj⟩)]
  exact key ix i jx hix

/-- A clamped `take` along the axis after the first `p.length`. -/
theorem take_spec {a : NArr α} {ix : NArr Int} {p q s : List Nat} {m : Nat} (ha : a.shape = p ++ m :: s)
    (hq : ix.shape = q) (hm : 0 < m) :
    ∃ c, a.take p.length ix = some c ∧ c.shape = p ++ (q ++ s) ∧
      ∀ i₁ i₂ jx : List Nat, InRange p i₁ → InRange q i₂ → InRange s jx →
        c.get? (i₁ ++ (i₂ ++ jx)) = (ix.get? i₂).bind fun i => a.get? (i₁ ++ Val.clip m i :: jx) := by
  have hr : p.length < a.rank := by unfold NArr.rank; rw [ha]; simp
  have hrk : ix.rank = q.length := by unfold NArr.rank; rw [hq]
  unfold NArr.take
  rw [if_pos hr, ha, hq, hrk, NArr.getD_mid rfl]
  have e1 : (p ++ m :: s).take p.length = p := by simp
  have e2 : (p ++ m :: s).drop (p.length + 1) = s := by simp
  rw [e1, e2, List.append_assoc]
  have key : ∀ i₁ i₂ jx : List Nat, InRange p i₁ → InRange q i₂ →
      ((ix.get? (((i₁ ++ (i₂ ++ jx)).drop p.length).take q.length)).bind fun i =>
        a.get? ((i₁ ++ (i₂ ++ jx)).take p.length ++ Val.clip m i ::
          (i₁ ++ (i₂ ++ jx)).drop (p.length + q.length))) =
      (ix.get? i₂).bind fun i => a.get? (i₁ ++ Val.clip m i :: jx) := by
    intro i₁ i₂ jx h1 h2
    have l1 := h1.length
    have l2 := h2.length
    rw [List.drop_left' l1.symm, List.take_left' l2.symm, List.take_left' l1.symm, ← List.drop_drop,
      List.drop_left' l1.symm, List.drop_left' l2.symm]
  obtain ⟨c, hc, hcs, hcg⟩ := NArr.ofFn?_spec (s := p ++ (q ++ s)) (f := fun jx =>
      (ix.get? ((jx.drop p.length).take q.length)).bind fun i =>
        a.get? (jx.take p.length ++ Val.clip m i :: jx.drop (p.length + q.length))) (by
    intro kx hk
    obtain ⟨i₁, r, rfl, h1, h2⟩ := inRange_append_left.1 hk
    obtain ⟨i₂, jx, rfl, h2, h3⟩ := inRange_append_left.1 h2
    simp only [key i₁ i₂ jx h1 h2]
    obtain ⟨x, hx⟩ := NArr.get?_exists (a := ix) (ix := i₂) (by rw [hq]; exact h2)
    rw [hx, Option.bind_some, NArr.get?_isSome, ha, inRange_append h1.length, inRange_cons]
    exact ⟨h1, Val.clip_lt hm _, h3⟩)
  refine ⟨c, hc, hcs, fun i₁ i₂ jx h1 h2 h3 => ?_⟩
  rw [hcg _ (by rw [inRange_append h1.length, inRange_append h2.length]; exact ⟨h1, h2, h3⟩)]
  exact key i₁ i₂ jx h1 h2

/-- A clamped `take_along_axis` with one position for each assignment of the indices `into`. -/
theorem gather_spec {t : NArr α} {ix : NArr Int} {into s : List Nat} {T K σ : Nat → Nat} {m : Nat}
    (hn : into.Nodup) (ht : t.shape = into.map T ++ m :: s)
    (hi : ix.shape = into.map K ++ 1 :: s.map fun _ => 1)
    (hT : ∀ x ∈ into, T x = 1 ∨ T x = σ x) (hK : ∀ x ∈ into, K x = 1 ∨ K x = σ x)
    (hc : ∀ x ∈ into, T x = σ x ∨ K x = σ x) (hm : 0 < m) :
    ∃ c, t.gather into.length ix = some c ∧ c.shape = into.map σ ++ 1 :: s ∧
      ∀ (ρ : Nat → Nat) (jx : List Nat), (∀ x ∈ into, ρ x < σ x) → InRange s jx →
        c.get? (into.map ρ ++ 0 :: jx) =
          (ix.get? (into.map (fun x => if K x = 1 then 0 else ρ x) ++ 0 :: s.map fun _ => 0)).bind fun i =>
            t.get? (into.map (fun x => if T x = 1 then 0 else ρ x) ++ Val.clip m i :: jx) := by
  have hr : t.rank = ix.rank := by unfold NArr.rank; rw [ht, hi]; simp
  have hr' : into.length < t.rank := by unfold NArr.rank; rw [ht]; simp
  have hl : into.length = (into.map T).length := by simp
  have hlK : into.length = (into.map K).length := by simp
  unfold NArr.gather
  rw [if_pos ⟨hr, hr'⟩, ht, hi, NArr.getD_mid hlK.symm, NArr.set_mid hl.symm, NArr.getD_mid hl.symm]
  have fit : ∀ f : Nat → Nat, (∀ x ∈ into, f x = 1 ∨ f x = σ x) → Fits (into.map f) (into.map σ) := by
    intro f hf
    unfold Fits
    rw [List.forall₂_map_left_iff, List.forall₂_map_right_iff, List.forall₂_same]
    exact hf
  have hb : NArr.bcast (into.map T ++ 1 :: s) (into.map K ++ 1 :: s.map fun _ => 1) =
      some (into.map σ ++ 1 :: s) := by
    have f1 : Fits (into.map T ++ 1 :: s) (into.map σ ++ 1 :: s) :=
      List.rel_append (fit T hT) (.cons (Or.inl rfl) (List.forall₂_same.2 fun _ _ => Or.inr rfl))
    have f2 : Fits (into.map K ++ 1 :: s.map fun _ => 1) (into.map σ ++ 1 :: s) :=
      List.rel_append (fit K hK) (.cons (Or.inl rfl) (by
        rw [List.forall₂_map_left_iff, List.forall₂_same]; exact fun _ _ => Or.inl rfl))
    have q1 : ∀ u : List Nat, u.length = (into.map σ ++ 1 :: s).length →
        NArr.padLeft (into.map σ ++ 1 :: s).length u = u := by
      intro u hu; rw [← hu]; exact padLeft_self u
    obtain ⟨u, hu, hul, hup⟩ := bcast_fits (s := into.map T ++ 1 :: s) (t := into.map K ++ 1 :: s.map fun _ => 1)
      (S := into.map σ ++ 1 :: s) (by simp) (by simp) (by rw [q1 _ (by simp)]; exact f1)
      (by rw [q1 _ (by simp)]; exact f2)
    rw [q1 u (by rw [hul]; simp), q1 _ (by simp), q1 _ (by simp)] at hup
    rw [hu, hup, List.zipWith_append (by simp), List.zipWith_cons_cons]
    congr 2
    · clear hr hr' hl hlK fit f1 f2 q1 hu hup hul hi ht hn
      induction into with
      | nil => rfl
      | cons x l ih =>
        rw [List.map_cons, List.map_cons, List.map_cons, List.zipWith_cons_cons,
          ih (fun y hy => hT y (by simp [hy])) (fun y hy => hK y (by simp [hy])) (fun y hy => hc y (by simp [hy]))]
        congr 1
        have h1 := hT x (by simp)
        have h2 := hK x (by simp)
        have h3 := hc x (by simp)
        unfold bd
        split <;> omega
    · congr 1
      clear hr hr' hl hlK fit f1 f2 q1 hu hup hul hi ht
      induction s with
      | nil => rfl
      | cons d s ih =>
        rw [List.map_cons, List.zipWith_cons_cons, ih]
        congr 1
        unfold bd
        split <;> omega
  rw [hb]
  simp only [Option.bind_some]
  have eT : ∀ (ρ : Nat → Nat) (jx : List Nat), InRange s jx → ∀ i : Nat,
      (NArr.bcastIx (into.map T ++ m :: s) (into.map ρ ++ 0 :: jx)).set into.length i =
        into.map (fun x => if T x = 1 then 0 else ρ x) ++ i :: jx := by
    intro ρ jx hj i
    have hjl := hj.length
    have c := clamp_self hj
    unfold NArr.bcastIx
    rw [show (into.map ρ ++ 0 :: jx).length - (into.map T ++ m :: s).length = 0 by simp; omega, List.drop_zero,
      List.zipWith_append (by simp), zipWith_map_same, List.zipWith_cons_cons, c, NArr.set_mid (by simp)]
  have eK : ∀ (ρ : Nat → Nat) (jx : List Nat), InRange s jx →
      NArr.bcastIx (into.map K ++ 1 :: s.map fun _ => 1) (into.map ρ ++ 0 :: jx) =
        into.map (fun x => if K x = 1 then 0 else ρ x) ++ 0 :: s.map fun _ => 0 := by
    intro ρ jx hj
    have hjl := hj.length
    unfold NArr.bcastIx
    rw [show (into.map ρ ++ 0 :: jx).length - (into.map K ++ 1 :: s.map fun _ => 1 : List Nat).length = 0 by simp; omega,
      List.drop_zero, List.zipWith_append (by simp), zipWith_map_same, List.zipWith_cons_cons]
    congr 2
    clear hr hr' ht hi hb eT hj
    induction s generalizing jx with
    | nil => rfl
    | cons d s ih =>
      cases jx with
      | nil => simp at hjl
      | cons j jx =>
        rw [List.map_cons, List.map_cons, List.zipWith_cons_cons, ih jx (by simpa using hjl)]
        rfl
  have vT : ∀ (ρ : Nat → Nat), (∀ x ∈ into, ρ x < σ x) → ∀ x ∈ into, (if T x = 1 then 0 else ρ x) < T x := by
    intro ρ hρ x hx
    have := hρ x hx
    have := hT x hx
    split <;> omega
  have vK : ∀ (ρ : Nat → Nat), (∀ x ∈ into, ρ x < σ x) → ∀ x ∈ into, (if K x = 1 then 0 else ρ x) < K x := by
    intro ρ hρ x hx
    have := hρ x hx
    have := hK x hx
    split <;> omega
  have hz : InRange (s.map fun _ => 1) (s.map fun _ => 0) := by
    unfold InRange
    rw [List.forall₂_map_left_iff, List.forall₂_map_right_iff, List.forall₂_same]
    exact fun _ _ => Nat.one_pos
  obtain ⟨c, hc, hcs, hcg⟩ := NArr.ofFn?_spec (s := into.map σ ++ 1 :: s) (f := fun kx =>
      (ix.get? (NArr.bcastIx (into.map K ++ 1 :: s.map fun _ => 1) kx)).bind fun i =>
        t.get? ((NArr.bcastIx (into.map T ++ m :: s) kx).set into.length (Val.clip m i))) (by
    intro kx hk
    obtain ⟨i₁, i, jx, rfl, hl', h1, h2, h3⟩ := NArr.inRange_mid hk
    obtain ⟨ρ, rfl⟩ := exists_assignment hn (p := i₁) (by rw [hl']; simp)
    have : i = 0 := by omega
    subst this
    have hρ := inRange_map.1 h1
    rw [eK ρ jx h3]
    obtain ⟨x, hx⟩ := NArr.get?_exists (a := ix)
      (ix := into.map (fun x => if K x = 1 then 0 else ρ x) ++ 0 :: s.map fun _ => 0) (by
        rw [hi, inRange_map_append, inRange_cons]
        exact ⟨vK ρ hρ, Nat.one_pos, hz⟩)
    simp only [hx, Option.bind_some]
    rw [eT ρ jx h3, NArr.get?_isSome, ht, inRange_map_append, inRange_cons]
    exact ⟨vT ρ hρ, Val.clip_lt hm _, h3⟩)
  refine ⟨c, hc, hcs, fun ρ jx hρ hj => ?_⟩
  rw [hcg _ (by rw [inRange_map_append, inRange_cons]; exact ⟨hρ, Nat.one_pos, hj⟩), eK ρ jx hj]
  congr 1
  funext i
  rw [eT ρ jx hj]

theorem spread_pos {β : Type} {axes : List Nat} {v : β} {k n : Nat} {l : List β} (h : k ∈ axes) :
    NArr.spread axes v k (n + 1) l = v :: NArr.spread axes v (k + 1) n l := by
  conv_lhs => unfold NArr.spread
  rw [if_pos h]

theorem spread_neg {β : Type} {axes : List Nat} {v x : β} {k n : Nat} {l : List β} (h : k ∉ axes) :
    NArr.spread axes v k (n + 1) (x :: l) = x :: NArr.spread axes v (k + 1) n l := by
  conv_lhs => unfold NArr.spread
  rw [if_neg h]

/-- Nothing is dropped before the given places. -/
theorem dropAt_none {β : Type} {axes : List Nat} {k : Nat} {l : List β} (h : ∀ x ∈ axes, x < k ∨ k + l.length ≤ x) :
    NArr.dropAt axes k l = l := by
  induction l generalizing k with
  | nil => rfl
  | cons y l ih =>
    have hk : k ∉ axes := fun hk => by have := h k hk; simp at this
    rw [NArr.dropAt, if_neg hk, ih fun x hx => by
      have := h x hx
      have : x ≠ k := fun e => hk (e ▸ hx)
      simp at *; omega]

theorem dropAt_append {β : Type} {axes : List Nat} {k : Nat} {l m : List β} (h : ∀ x ∈ axes, x < k ∨ k + l.length ≤ x) :
    NArr.dropAt axes k (l ++ m) = l ++ NArr.dropAt axes (k + l.length) m := by
  induction l generalizing k with
  | nil => rfl
  | cons y l ih =>
    have hk : k ∉ axes := fun hk => by have := h k hk; simp at this
    rw [List.cons_append, NArr.dropAt, if_neg hk, ih fun x hx => by
      have := h x hx
      have : x ≠ k := fun e => hk (e ▸ hx)
      simp at *; omega]
    simp [Nat.add_assoc, Nat.add_comm 1]

theorem dropAt_all {β : Type} {axes : List Nat} {k : Nat} {l : List β} (h : ∀ j < l.length, k + j ∈ axes) :
    NArr.dropAt axes k l = [] := by
  induction l generalizing k with
  | nil => rfl
  | cons y l ih =>
    rw [NArr.dropAt, if_pos (by have := h 0 (by simp); rwa [Nat.add_zero] at this), ih fun j hj => by
      have := h (j + 1) (by simpa using hj)
      rwa [show k + 1 + j = k + (j + 1) by omega]]

theorem spread_append {β : Type} {axes : List Nat} {v : β} {k n : Nat} {l m : List β}
    (h : ∀ x ∈ axes, x < k ∨ k + l.length ≤ x) :
    NArr.spread axes v k (l.length + n) (l ++ m) = l ++ NArr.spread axes v (k + l.length) n m := by
  induction l generalizing k with
  | nil => simp
  | cons y l ih =>
    have hk : k ∉ axes := fun hk => by have := h k hk; simp at this
    rw [List.length_cons, show l.length + 1 + n = (l.length + n) + 1 by omega, List.cons_append, spread_neg hk,
      ih fun x hx => by
      have := h x hx
      have : x ≠ k := fun e => hk (e ▸ hx)
      simp at *; omega]
    simp only [List.cons_append]
    congr 3
    omega

theorem spread_self {β : Type} {axes : List Nat} {v : β} {k : Nat} {l : List β}
    (h : ∀ x ∈ axes, x < k ∨ k + l.length ≤ x) : NArr.spread axes v k l.length l = l := by
  have := spread_append (v := v) (n := 0) (m := []) h
  simpa [NArr.spread] using this

theorem spread_all {β : Type} {axes : List Nat} {v : β} {k n : Nat} {l : List β} (h : ∀ j < n, k + j ∈ axes) :
    NArr.spread axes v k n l = List.replicate n v := by
  induction n generalizing k with
  | zero => rfl
  | succ n ih =>
    rw [spread_pos (by have := h 0 (by omega); rwa [Nat.add_zero] at this), ih fun j hj => by
      have := h (j + 1) (by omega)
      rwa [show k + 1 + j = k + (j + 1) by omega]]
    rfl

/-- Removing the axis of length 1 after the first `p.length`. -/
theorem squeeze_at {a : NArr α} {p s : List Nat} (ha : a.shape = p ++ 1 :: s) :
    ∃ c, a.squeeze [p.length] = some c ∧ c.shape = p ++ s ∧
      ∀ ix jx, InRange p ix → InRange s jx → c.get? (ix ++ jx) = a.get? (ix ++ 0 :: jx) := by
  have hd : NArr.dropAt [p.length] 0 (p ++ 1 :: s) = p ++ s := by
    rw [dropAt_append (by simp), Nat.zero_add, NArr.dropAt, if_pos (by simp), dropAt_none (by simp)]
  have hs : ∀ ix jx, InRange p ix → InRange s jx →
      NArr.spread [p.length] 0 0 a.rank (ix ++ jx) = ix ++ 0 :: jx := by
    intro ix jx hi hj
    rw [show a.rank = ix.length + (jx.length + 1) by unfold NArr.rank; rw [ha, ← hi.length, ← hj.length]; simp]
    rw [spread_append (by simp [hi.length]), Nat.zero_add, spread_pos (by simp [hi.length]),
      spread_self (by simp [hi.length])]
  unfold NArr.squeeze
  rw [if_pos ⟨by simp, by simp [ha]⟩, ha, hd]
  obtain ⟨c, hc, hcs, hcg⟩ := NArr.reindex_spec (a := a) (s := p ++ s)
    (g := fun ix => NArr.spread [p.length] 0 0 a.rank ix) (by
    intro ix hix
    obtain ⟨i₁, i₂, rfl, h1, h2⟩ := inRange_append_left.1 hix
    rw [hs i₁ i₂ h1 h2, ha, inRange_append h1.length, inRange_cons]
    exact ⟨h1, Nat.one_pos, h2⟩)
  refine ⟨c, hc, hcs, fun ix jx hi hj => ?_⟩
  rw [hcg _ ((inRange_append hi.length).2 ⟨hi, hj⟩)]
  exact congrArg _ (hs ix jx hi hj)

/-- Adding axes of length 1 at the end. -/
theorem unsqueeze_end {a : NArr α} {p : List Nat} (ha : a.shape = p) (r : Nat) :
    ∃ c, a.unsqueeze ((List.range r).map (p.length + ·)) = some c ∧ c.shape = p ++ List.replicate r 1 ∧
      ∀ ix jx, InRange p ix → InRange (List.replicate r 1) jx → c.get? (ix ++ jx) = a.get? ix := by
  have hm : ∀ j < r, p.length + j ∈ (List.range r).map (p.length + ·) := fun j hj =>
    List.mem_map.2 ⟨j, List.mem_range.2 hj, rfl⟩
  have hr : ∀ x ∈ (List.range r).map (p.length + ·), x < 0 ∨ 0 + p.length ≤ x := by
    intro x hx
    obtain ⟨j, _, rfl⟩ := List.mem_map.1 hx
    omega
  have hk : a.rank = p.length := by unfold NArr.rank; rw [ha]
  have hs : NArr.spread ((List.range r).map (p.length + ·)) 1 0
      (((List.range r).map (p.length + ·)).length + a.rank) a.shape = p ++ List.replicate r 1 := by
    rw [ha, hk, Nat.add_comm]
    have := spread_append (v := 1) (n := r) (m := []) hr
    rw [List.append_nil] at this
    simp only [List.length_map, List.length_range]
    rw [this, Nat.zero_add, spread_all hm]
  have hd : ∀ ix jx, InRange p ix → InRange (List.replicate r 1) jx →
      NArr.dropAt ((List.range r).map (p.length + ·)) 0 (ix ++ jx) = ix := by
    intro ix jx hi hj
    rw [dropAt_append (by rw [← hi.length]; exact hr), Nat.zero_add, dropAt_all, List.append_nil]
    have := hj.length
    simp at this
    rw [← hi.length, ← this]
    exact hm
  unfold NArr.unsqueeze
  rw [if_pos, hs]
  · obtain ⟨c, hc, hcs, hcg⟩ := NArr.reindex_spec (a := a) (s := p ++ List.replicate r 1)
      (g := fun ix => NArr.dropAt ((List.range r).map (p.length + ·)) 0 ix) (by
      intro ix hix
      obtain ⟨i₁, i₂, rfl, h1, h2⟩ := inRange_append_left.1 hix
      rw [hd i₁ i₂ h1 h2, ha]
      exact h1)
    refine ⟨c, hc, hcs, fun ix jx hi hj => ?_⟩
    rw [hcg _ ((inRange_append hi.length).2 ⟨hi, hj⟩)]
    exact congrArg _ (hd ix jx hi hj)
  · refine ⟨List.nodup_range.map fun x y h => by simpa using h, ?_⟩
    intro k hk'
    obtain ⟨j, hj, rfl⟩ := List.mem_map.1 hk'
    have := List.mem_range.1 hj
    simp [hk]; omega

end Verif.Codegen
