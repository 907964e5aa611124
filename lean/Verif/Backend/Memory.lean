import Verif.Yarr.Sem
import Verif.Array.Shape

/-!
A memory of array buffers for the NumPy backend. A NumPy array object is a reference to a buffer together
with the positions of the buffer it shows (a *view*); `numpy.transpose`, `numpy.squeeze`,
`numpy.expand_dims` and basic slicing return new references to the same buffer, most other functions
allocate. The garbage collector is not modelled: buffers are never removed.
-/

set_option linter.unusedSectionVars false

namespace Verif.Backend
open Verif.Term Verif.Phi Verif.Arr Verif.Yarr
variable {F : Type}

/-- The buffers, in the order they were allocated. -/
abbrev Mem (F : Type) := List (A F)

/-- A NumPy array object: element `ix` is the element of buffer `addr` at position `idx ix`. -/
structure Ref where
  addr : Nat
  shape : List Nat
  idx : List Nat → List Nat

/-- The values the staged functions return: an array or a tuple of arrays (`numpy_backend.py:14`). -/
inductive HVal where
  | arr (r : Ref)
  | tup (rs : List Ref)

/-- The array a reference shows at the moment. -/
def Ref.read (r : Ref) (H : Mem F) : Option (A F) :=
  (H[r.addr]?).bind fun b => NArr.ofFn? r.shape (fun ix => b.get? (r.idx ix))

/-- The value the arrays show at the moment. -/
def HVal.read : HVal → Mem F → Option (YVal F)
  | .arr r, H => (r.read H).bind fun a => some (.arr a)
  | .tup rs, H => (mapOpt (fun r => r.read H) rs).bind fun as => some (.tup as)

/-- Another view of the same buffer. -/
def Ref.view (r : Ref) (s : List Nat) (g : List Nat → List Nat) : Ref := ⟨r.addr, s, fun ix => r.idx (g ix)⟩

/-- A computation on the memory; `none` for an exception, which does not undo writes. -/
abbrev M (F α : Type) := Mem F → Option α × Mem F

namespace M
variable {α β : Type}

def ret (a : α) : M F α := fun H => (some a, H)

def ofOpt (o : Option α) : M F α := fun H => (o, H)

def bind (m : M F α) (f : α → M F β) : M F β := fun H =>
  match m H with
  | (some a, H') => f a H'
  | (none, H') => (none, H')

/-- Run the computations from left to right. -/
def seq : List (M F α) → M F (List α)
  | [] => ret []
  | m :: ms => m.bind fun a => (seq ms).bind fun as => ret (a :: as)

/-- A `for` loop. -/
def loop (f : β → α → M F β) : β → List α → M F β
  | b, [] => ret b
  | b, a :: l => (f b a).bind fun b' => loop f b' l

end M

/-- A new buffer, with its only reference. -/
def alloc (a : A F) : M F Ref := fun H => (some ⟨H.length, a.shape, fun ix => ix⟩, H ++ [a])

/-- New buffers for all arrays of a value. -/
def allocVal : YVal F → M F HVal
  | .arr a => (alloc a).bind fun r => M.ret (.arr r)
  | .tup as => (M.seq (as.map alloc)).bind fun rs => M.ret (.tup rs)

/-- The array a reference shows at the moment. -/
def loadRef (r : Ref) : M F (A F) := fun H => (r.read H, H)

/-- The value the references show at the moment. -/
def load (v : HVal) : M F (YVal F) := fun H => (v.read H, H)

/-- The buffer `b` after the elements of `w` are written through the reference `r`. -/
def writeThrough (b : A F) (r : Ref) (w : A F) : Option (A F) :=
  NArr.ofFn? b.shape (fun p =>
    match (indices r.shape).find? (fun ix => r.idx ix = p) with
    | some ix => w.get? ix
    | none => b.get? p)

/-- Write an array through a reference. -/
def storeRef (r : Ref) (w : A F) : M F Unit := fun H =>
  match (H[r.addr]?).bind fun b => writeThrough b r w with
  | some b' => (some (), H.set r.addr b')
  | none => (none, H)

/-! ### Computations that do not touch old buffers -/

/-- Related results. -/
def OptRel {α β : Type} (R : α → β → Prop) : Option α → Option β → Prop
  | some a, some b => R a b
  | none, none => True
  | _, _ => False

/-- Started in memory `H`, the computation leaves all buffers of `H` as they are (whether or not it
raises), and its outcome is the one of the pure computation `o`. -/
def Sim {α β : Type} (R : Mem F → α → β → Prop) (H : Mem F) (m : M F α) (o : Option β) : Prop :=
  H <+: (m H).2 ∧ OptRel (R (m H).2) (m H).1 o

/-- The relation is kept when buffers are allocated. -/
def Stable {α β : Type} (R : Mem F → α → β → Prop) : Prop :=
  ∀ ⦃H H' a b⦄, H <+: H' → R H a b → R H' a b

section sim
variable {α β α' β' : Type} {R : Mem F → α → β → Prop} {S : Mem F → α' → β' → Prop} {H : Mem F}

theorem Sim.bind {m : M F α} {o : Option β} {f : α → M F α'} {g : β → Option β'} (h : Sim R H m o)
    (hf : ∀ H' a b, H <+: H' → R H' a b → Sim S H' (f a) (g b)) : Sim S H (m.bind f) (o.bind g) := by
  obtain ⟨h1, h2⟩ := h
  unfold Sim M.bind
  rcases e : m H with ⟨_ | a, H'⟩ <;> rw [e] at h1 h2 <;> cases o with
  | none => first | exact ⟨h1, trivial⟩ | exact h2.elim
  | some b =>
    first
    | exact h2.elim
    | exact ⟨h1.trans (hf H' a b h1 h2).1, (hf H' a b h1 h2).2⟩

theorem Sim.ret {a : α} {b : β} (h : R H a b) : Sim R H (M.ret a) (some b) := ⟨List.prefix_rfl, h⟩

theorem Sim.ofOpt {a : Option α} {b : Option β} (h : OptRel (R H) a b) : Sim R H (M.ofOpt a) b :=
  ⟨List.prefix_rfl, h⟩

theorem Sim.mono {m : M F α} {o : Option β} {R' : Mem F → α → β → Prop} (h : Sim R H m o)
    (hR : ∀ H' a b, H <+: H' → R H' a b → R' H' a b) : Sim R' H m o := by
  refine ⟨h.1, ?_⟩
  have h2 := h.2
  cases e1 : (m H).1 <;> cases o <;> rw [e1] at h2 <;>
    first | exact trivial | exact h2.elim | exact hR _ _ _ h.1 h2

theorem Sim.none_left {m : M F α} {o : Option β} (h : Sim R H m o) (hm : (m H).1 = none) : o = none := by
  have h2 := h.2
  rw [hm] at h2
  cases o
  · rfl
  · exact h2.elim

theorem Sim.of_some {m : M F α} {o : Option β} {a : α} (h : Sim R H m o) (hm : (m H).1 = some a) :
    ∃ b, o = some b ∧ R (m H).2 a b := by
  have h2 := h.2
  rw [hm] at h2
  cases o
  · exact h2.elim
  · exact ⟨_, rfl, h2⟩

theorem Stable.forall₂ (hR : Stable R) : Stable (fun H => List.Forall₂ (R H)) :=
  fun _ _ _ _ hp h => h.imp (fun _ _ h => hR hp h)

theorem Sim.seq' (hR : Stable R) {H₀ : Mem F} {ms : List (M F α)} {os : List (Option β)}
    (h : List.Forall₂ (fun m o => ∀ H', H₀ <+: H' → Sim R H' m o) ms os) (H : Mem F) (hH : H₀ <+: H) :
    Sim (fun H' => List.Forall₂ (R H')) H (M.seq ms) (mapOpt (fun o => o) os) := by
  induction h generalizing H with
  | nil => exact Sim.ret .nil
  | cons h1 h2 ih =>
    rw [M.seq, mapOpt]
    refine Sim.bind (h1 H hH) (fun H' a b hp hab => ?_)
    refine Sim.bind (ih H' (hH.trans hp)) (fun H'' as bs hp' has => ?_)
    exact Sim.ret (.cons (hR hp' hab) has)

theorem Sim.seq (hR : Stable R) {ms : List (M F α)} {os : List (Option β)}
    (h : List.Forall₂ (fun m o => ∀ H', H <+: H' → Sim R H' m o) ms os) :
    Sim (fun H' => List.Forall₂ (R H')) H (M.seq ms) (mapOpt (fun o => o) os) :=
  Sim.seq' hR h H List.prefix_rfl

theorem Sim.loop {γ : Type} {f : α → γ → M F α} {g : β → γ → Option β} {H₀ : Mem F}
    (hf : ∀ H a b c, H₀ <+: H → R H a b → Sim R H (f a c) (g b c)) (l : List γ) (H : Mem F) (hH : H₀ <+: H)
    {a : α} {b : β} (hab : R H a b) : Sim R H (M.loop f a l) (loopOpt g b l) := by
  induction l generalizing H a b with
  | nil => exact Sim.ret hab
  | cons c l ih =>
    rw [M.loop, loopOpt]
    exact Sim.bind (hf H a b c hH hab) (fun H' a' b' hp hab' => ih H' (hH.trans hp) hab')

end sim

/-! ### References -/

theorem mapOpt_iff_forall₂ {α β : Type} {f : α → Option β} {l : List α} {bs : List β} :
    mapOpt f l = some bs ↔ List.Forall₂ (fun a b => f a = some b) l bs := by
  induction l generalizing bs with
  | nil => cases bs <;> simp [mapOpt]
  | cons a l ih =>
    simp only [mapOpt, Option.bind_eq_some_iff, Option.some.injEq]
    constructor
    · rintro ⟨b, hb, bs', hbs, rfl⟩
      exact .cons hb (ih.1 hbs)
    · rintro (_ | ⟨hb, hbs⟩)
      exact ⟨_, hb, _, ih.2 hbs, rfl⟩

theorem mapOpt_self {α : Type} (l : List α) : mapOpt (fun a => some a) l = some l := by
  rw [mapOpt_iff_forall₂]; exact List.forall₂_same.2 (fun _ _ => rfl)

theorem getElem?_prefix {H H' : Mem F} {k : Nat} {b : A F} (hp : H <+: H') (h : H[k]? = some b) :
    H'[k]? = some b := by
  obtain ⟨t, rfl⟩ := hp
  rw [List.getElem?_append_left]
  · exact h
  · exact (List.getElem?_eq_some_iff.1 h).1

/-- The reference shows this array. -/
def Shows (H : Mem F) (r : Ref) (a : A F) : Prop := r.read H = some a

/-- The references show this value. -/
def ShowsV (H : Mem F) (v : HVal) (y : YVal F) : Prop := v.read H = some y

theorem Shows.stable : Stable (Shows (F := F)) := by
  intro H H' r a hp h
  unfold Shows Ref.read at *
  simp only [Option.bind_eq_some_iff] at h ⊢
  obtain ⟨b, hb, h⟩ := h
  exact ⟨b, getElem?_prefix hp hb, h⟩

theorem showsV_arr {H : Mem F} {r : Ref} {y : YVal F} :
    ShowsV H (.arr r) y ↔ ∃ a, y = .arr a ∧ Shows H r a := by
  simp only [ShowsV, HVal.read, Shows, Option.bind_eq_some_iff, Option.some.injEq]
  exact ⟨fun ⟨a, h1, h2⟩ => ⟨a, h2.symm, h1⟩, fun ⟨a, h1, h2⟩ => ⟨a, h2, h1.symm⟩⟩

theorem showsV_tup {H : Mem F} {rs : List Ref} {y : YVal F} :
    ShowsV H (.tup rs) y ↔ ∃ as, y = .tup as ∧ List.Forall₂ (Shows H) rs as := by
  simp only [ShowsV, HVal.read, Option.bind_eq_some_iff, Option.some.injEq, mapOpt_iff_forall₂]
  exact ⟨fun ⟨a, h1, h2⟩ => ⟨a, h2.symm, h1⟩, fun ⟨a, h1, h2⟩ => ⟨a, h2, h1.symm⟩⟩

theorem ShowsV.stable : Stable (ShowsV (F := F)) := by
  intro H H' v y hp h
  cases v with
  | arr r =>
    obtain ⟨a, rfl, ha⟩ := showsV_arr.1 h
    exact showsV_arr.2 ⟨a, rfl, Shows.stable hp ha⟩
  | tup rs =>
    obtain ⟨as, rfl, ha⟩ := showsV_tup.1 h
    exact showsV_tup.2 ⟨as, rfl, Shows.stable.forall₂ hp ha⟩

theorem Shows.shape {H : Mem F} {r : Ref} {a : A F} (h : Shows H r a) : a.shape = r.shape := by
  simp only [Shows, Ref.read, Option.bind_eq_some_iff] at h
  obtain ⟨b, _, h⟩ := h
  exact (NArr.ofFn?_eq_some.1 h).1

/-- A view shows the elements it selects. -/
theorem Shows.view {H : Mem F} {r : Ref} {a v : A F} {s : List Nat} {g : List Nat → List Nat}
    (h : Shows H r a) (hv : a.reindex s g = some v) : Shows H (r.view s g) v := by
  simp only [Shows, Ref.read, Option.bind_eq_some_iff] at h ⊢
  obtain ⟨b, hb, h⟩ := h
  refine ⟨b, hb, ?_⟩
  rw [NArr.ofFn?_eq_some] at h ⊢
  obtain ⟨hs, hv⟩ := NArr.ofFn?_eq_some.1 hv
  refine ⟨hs, fun ix hix => ?_⟩
  obtain ⟨h1, h2⟩ := hv ix hix
  have hg := NArr.get?_isSome.1 h2
  rw [h.1] at hg
  obtain ⟨h3, h4⟩ := h.2 _ hg
  exact ⟨h1.trans h3, h4⟩

theorem sim_alloc {H : Mem F} (a : A F) : Sim Shows H (alloc a) (some a) := by
  refine ⟨List.prefix_append _ _, ?_⟩
  show Shows (H ++ [a]) ⟨H.length, a.shape, fun ix => ix⟩ a
  simp only [Shows, Ref.read, List.getElem?_append_right (Nat.le_refl _), Nat.sub_self,
    List.getElem?_cons_zero, Option.bind_some]
  exact NArr.ofFn?_eq_some.2 ⟨rfl, fun ix hix => ⟨rfl, NArr.get?_isSome.2 hix⟩⟩

theorem sim_allocVal {H : Mem F} (y : YVal F) : Sim ShowsV H (allocVal y) (some y) := by
  cases y with
  | arr a =>
    have := Sim.bind (S := ShowsV) (f := fun r => M.ret (HVal.arr r)) (g := fun a => some (YVal.arr a))
      (sim_alloc (H := H) a) (fun H' r b _ h => Sim.ret (showsV_arr.2 ⟨b, rfl, h⟩))
    exact this
  | tup as =>
    have h1 : List.Forall₂ (fun m o => ∀ H', H <+: H' → Sim Shows H' m o) (as.map alloc) (as.map some) := by
      rw [List.forall₂_map_left_iff, List.forall₂_map_right_iff]
      exact List.forall₂_same.2 (fun a _ H' _ => sim_alloc a)
    have h2 := Sim.seq Shows.stable h1
    rw [mapOpt_map, mapOpt_self] at h2
    exact Sim.bind (S := ShowsV) (f := fun rs => M.ret (HVal.tup rs)) (g := fun as => some (YVal.tup as))
      h2 (fun H' rs bs _ h => Sim.ret (showsV_tup.2 ⟨bs, rfl, h⟩))

theorem sim_loadRef {H : Mem F} {r : Ref} {a : A F} (h : Shows H r a) :
    Sim (fun _ x y => x = y) H (loadRef r) (some a) := by
  refine ⟨List.prefix_rfl, ?_⟩
  show OptRel _ (r.read H) (some a)
  rw [h]; rfl

theorem sim_load {H : Mem F} {v : HVal} {y : YVal F} (h : ShowsV H v y) :
    Sim (fun _ x y => x = y) H (load v) (some y) := by
  refine ⟨List.prefix_rfl, ?_⟩
  show OptRel _ (v.read H) (some y)
  rw [h]; rfl

/-! ### Writing -/

/-- The only reference to a new buffer, all of which it shows. -/
def Owned (H₀ H : Mem F) (r : Ref) : Prop :=
  H₀.length ≤ r.addr ∧ r.idx = (fun ix => ix) ∧ ∃ b, H[r.addr]? = some b ∧ b.shape = r.shape

theorem Owned.later {H₀ H H' : Mem F} {r : Ref} (h : Owned H₀ H r) (hp : H <+: H') : Owned H₀ H' r := by
  obtain ⟨h1, h2, b, h3, h4⟩ := h
  exact ⟨h1, h2, b, getElem?_prefix hp h3, h4⟩

theorem Owned.earlier {H₀ H₁ H : Mem F} {r : Ref} (h : Owned H₁ H r) (hp : H₀ <+: H₁) : Owned H₀ H r :=
  ⟨hp.length_le.trans h.1, h.2⟩

theorem prefix_set {H₀ H : Mem F} {k : Nat} (b : A F) (hp : H₀ <+: H) (hk : H₀.length ≤ k) :
    H₀ <+: H.set k b := by
  obtain ⟨t, rfl⟩ := hp
  rw [List.set_append_right _ _ hk]
  exact List.prefix_append _ _

theorem writeThrough_owned {b w : A F} {r : Ref} (hi : r.idx = fun ix => ix) (hs : b.shape = r.shape)
    (hw : w.shape = r.shape) : writeThrough b r w = some w := by
  unfold writeThrough
  rw [NArr.ofFn?_eq_some]
  refine ⟨by rw [hw, hs], fun p hp => ?_⟩
  have hm : p ∈ indices r.shape := mem_indices.2 (hs ▸ hp)
  have hf : (indices r.shape).find? (fun ix => r.idx ix = p) = some p := by
    rw [hi]
    have h1 : ((indices r.shape).find? (fun ix => decide (ix = p))).isSome :=
      List.find?_isSome.2 ⟨p, hm, by simp⟩
    obtain ⟨q, hq⟩ := Option.isSome_iff_exists.1 h1
    have := List.find?_some hq
    rw [hq, of_decide_eq_true this]
  rw [hf]
  refine ⟨rfl, NArr.get?_isSome.2 ?_⟩
  rw [hw, ← hs]; exact hp

/-- Writing to an owned buffer. -/
theorem storeRef_owned {H₀ H : Mem F} {r : Ref} {w : A F} (hp : H₀ <+: H) (h : Owned H₀ H r)
    (hw : w.shape = r.shape) :
    storeRef r w H = (some (), H.set r.addr w) ∧ H₀ <+: H.set r.addr w ∧ Owned H₀ (H.set r.addr w) r ∧
      Shows (H.set r.addr w) r w := by
  obtain ⟨h1, h2, b, h3, h4⟩ := h
  have hl := (List.getElem?_eq_some_iff.1 h3).1
  have hg : (H.set r.addr w)[r.addr]? = some w := by rw [List.getElem?_set_self hl]
  refine ⟨?_, prefix_set w hp h1, ⟨h1, h2, w, hg, hw⟩, ?_⟩
  · unfold storeRef
    rw [h3, Option.bind_some, writeThrough_owned h2 h4 hw]
  · unfold Shows Ref.read
    rw [hg, Option.bind_some, h2]
    exact NArr.ofFn?_eq_some.2 ⟨hw, fun ix hix => ⟨rfl, NArr.get?_isSome.2 (hw ▸ hix)⟩⟩

theorem alloc_owned (H : Mem F) (a : A F) :
    Owned H (alloc a H).2 ⟨H.length, a.shape, fun ix => ix⟩ :=
  ⟨Nat.le_refl _, rfl, a, by simp [alloc], rfl⟩

end Verif.Backend
