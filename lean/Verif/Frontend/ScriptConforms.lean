import Verif.Frontend.ScriptTraces

/-! Programs of the user: the values they have are arrays of elements of equal shapes, and records with the names of the type;
and the sizes that are left out. -/

set_option linter.unusedSectionVars false

namespace Verif.Frontend
open Verif.Phi Verif.Term Verif.Midend Verif.Codegen Verif.Props
variable {F : Type}

mutual
/-- A value with a layout: the elements of arrays have equal shapes. -/
def Conforms : Layout → PVal F → Prop
  | .atom, .sc _ => True
  | .vec l, .arr vs => (∀ v ∈ vs, Conforms l v) ∧ ∀ a ∈ vs, ∀ b ∈ vs, PVal.SameShape a b
  | .struct k ls, .record k' vs => k = k' ∧ ConformsF ls vs
  | _, _ => False
def ConformsF : LFields → List (String × PVal F) → Prop
  | .nil, [] => True
  | .cons n l rest, (m, v) :: vs => n = m ∧ Conforms l v ∧ ConformsF rest vs
  | _, _ => False
end

theorem conforms_sc {s : Scal F} : Conforms .atom (.sc s) := by simp [Conforms]

theorem Conforms.find {n : String} : ∀ {fs : UFields} {l : List (String × PVal F)} {t : UTy} {v : PVal F}, ConformsF fs.layout l →
    fs.find n = some t → (l.find? fun p => p.1 = n).map Prod.snd = some v → Conforms t.layout v
  | .nil, _, _, _, _, h, _ => by simp [UFields.find] at h
  | .cons m s rest, [], _, _, hf, _, _ => by simp [UFields.layout, ConformsF] at hf
  | .cons m s rest, (m', w) :: l, t, v, hf, h, hv => by
    simp only [UFields.layout, ConformsF] at hf
    obtain ⟨rfl, h1, h2⟩ := hf
    simp only [UFields.find] at h
    by_cases hm : m = n
    · rw [if_pos hm] at h
      cases h
      simp only [List.find?_cons, hm, decide_true, Option.map_some, Option.some.injEq] at hv
      exact hv ▸ h1
    · rw [if_neg hm] at h
      simp only [List.find?_cons, hm, decide_false] at hv
      exact Conforms.find h2 h hv

theorem Conforms.nth : ∀ {i : Nat} {fs : UFields} {l : List (String × PVal F)} {t : UTy} {v : PVal F}, ConformsF fs.layout l →
    fs.nth i = some t → l[i]?.map Prod.snd = some v → Conforms t.layout v
  | i, .nil, _, _, _, _, h, _ => by simp [UFields.nth] at h
  | i, .cons m s rest, [], _, _, hf, _, _ => by simp [UFields.layout, ConformsF] at hf
  | 0, .cons m s rest, (m', w) :: l, t, v, hf, h, hv => by
    simp only [UFields.layout, ConformsF] at hf
    simp only [UFields.nth, Option.some.injEq] at h
    simp only [List.getElem?_cons_zero, Option.map_some, Option.some.injEq] at hv
    rw [← h, ← hv]
    exact hf.2.1
  | i + 1, .cons m s rest, (m', w) :: l, t, v, hf, h, hv => by
    simp only [UFields.layout, ConformsF] at hf
    exact Conforms.nth (i := i) hf.2.2 (by simpa [UFields.nth] using h) (by simpa using hv)

theorem Conforms.field {n : String} {t t' : UTy} {v v' : PVal F} (h : Conforms t.layout v) (ht : t.field? n = some t')
    (hv : fieldOf n v = some v') : Conforms t'.layout v' := by
  cases t with
  | record k fs =>
    cases v with
    | record k' l =>
      simp only [UTy.layout, Conforms] at h
      obtain ⟨rfl, h⟩ := h
      cases k <;> simp only [UTy.field?, fieldOf, reduceCtorEq] at ht hv
      · exact Conforms.find h ht hv
      · exact Conforms.find h ht hv
    | _ => simp [fieldOf] at hv
  | _ => simp [UTy.field?] at ht

theorem Conforms.part {i : Nat} {t t' : UTy} {v v' : PVal F} (h : Conforms t.layout v) (ht : t.part? i = some t')
    (hv : partOf i v = some v') : Conforms t'.layout v' := by
  cases t with
  | record k fs =>
    cases v with
    | record k' l =>
      simp only [UTy.layout, Conforms] at h
      obtain ⟨rfl, h⟩ := h
      cases k <;> simp only [UTy.part?, partOf, reduceCtorEq] at ht hv
      exact Conforms.nth h ht hv
    | _ => simp [partOf] at hv
  | _ => simp [UTy.part?] at ht

variable [FloatOps F] [DecidableEq F]

/-- What the induction shows of a program. -/
def Forms (P : Script F) : Prop :=
  ∀ (ts : List UTy) (t : UTy) (vs : List (PVal F)) (v : PVal F), List.Forall₂ (fun t v => Conforms t.layout v) ts vs →
    typ P ts = some t → sem P vs = some v → Conforms t.layout v
def FormsF (P : SFields F) : Prop :=
  ∀ (ts : List UTy) (t : UFields) (vs : List (PVal F)) (v : List (String × PVal F)),
    List.Forall₂ (fun t v => Conforms t.layout v) ts vs → typFields P ts = some t → semFields P vs = some v → ConformsF t.layout v

theorem forms_loop {α : Type} {l : Layout} {f : PVal F → α → Option (PVal F)} : ∀ {ks : List α} {v w : PVal F},
    (∀ k ∈ ks, ∀ v w, Conforms l v → f v k = some w → Conforms l w) → Conforms l v → loopOpt f v ks = some w → Conforms l w
  | [], v, w, _, hv, h => by simp only [loopOpt, Option.some.injEq] at h; exact h ▸ hv
  | k :: ks, v, w, hf, hv, h => by
    simp only [loopOpt, Option.bind_eq_some_iff] at h
    obtain ⟨u, h1, h2⟩ := h
    exact forms_loop (fun k hk => hf k (by simp [hk])) (hf k (by simp) v u hv h1) h2

theorem Conforms.arr {l : Layout} {v : PVal F} (h : Conforms (.vec l) v) : ∃ vs, v = .arr vs ∧ (∀ v ∈ vs, Conforms l v) ∧
    ∀ a ∈ vs, ∀ b ∈ vs, PVal.SameShape a b := by
  cases v with
  | arr vs =>
    simp only [Conforms] at h
    exact ⟨vs, rfl, h⟩
  | _ => simp [Conforms] at h

mutual
/-- The value of a typed program has the layout of its type. -/
theorem forms : ∀ P : Script F, Forms P
  | .loc n => by
    intro ts t vs v hs ht hv
    simp only [typ] at ht
    simp only [sem] at hv
    obtain ⟨hl, hh⟩ := List.forall₂_iff_get.1 hs
    obtain ⟨h1, rfl⟩ := List.getElem?_eq_some_iff.1 ht
    obtain ⟨h2, rfl⟩ := List.getElem?_eq_some_iff.1 hv
    exact hh n h1 h2
  | .lit s => by
    intro ts t vs v hs ht hv
    simp only [typ, Option.some.injEq] at ht
    simp only [sem, Option.some.injEq] at hv
    subst ht hv
    exact conforms_sc
  | .assign a b => by
    intro ts t vs v hs ht hv
    simp only [typ, Option.bind_eq_some_iff] at ht
    simp only [sem, Option.bind_eq_some_iff] at hv
    obtain ⟨t1, ht1, ht2⟩ := ht
    obtain ⟨u, hu, hv⟩ := hv
    exact forms b _ _ _ _ (.cons (forms a _ _ _ _ hs ht1 hu) hs) ht2 hv
  | .un _ a => by
    intro ts t vs v hs ht hv
    simp only [typ, Option.bind_eq_some_iff, Option.map_eq_some_iff] at ht
    simp only [sem, Option.bind_eq_some_iff, Option.map_eq_some_iff] at hv
    obtain ⟨_, _, _, _, rfl⟩ := ht
    obtain ⟨_, _, _, _, rfl⟩ := hv
    exact conforms_sc
  | .bin _ a b => by
    intro ts t vs v hs ht hv
    simp only [typ, Option.bind_eq_some_iff, Option.map_eq_some_iff] at ht
    simp only [sem, Option.bind_eq_some_iff, Option.map_eq_some_iff] at hv
    obtain ⟨_, _, _, _, _, _, rfl⟩ := ht
    obtain ⟨_, _, _, _, _, _, rfl⟩ := hv
    exact conforms_sc
  | .choose a b d => by
    intro ts t vs v hs ht hv
    simp only [typ, Option.bind_eq_some_iff, Option.map_eq_some_iff] at ht
    simp only [sem, Option.bind_eq_some_iff, Option.map_eq_some_iff] at hv
    obtain ⟨_, _, _, _, _, _, _, _, rfl⟩ := ht
    obtain ⟨_, _, _, _, _, _, _, _, rfl⟩ := hv
    exact conforms_sc
  | .item x i => by
    intro ts t vs v hs ht hv
    simp only [typ, Option.bind_eq_some_iff, Option.some.injEq] at ht
    simp only [sem, Option.bind_eq_some_iff] at hv
    obtain ⟨t', ⟨t1, ht1, he⟩, k, ⟨t2, ht2, hk⟩, rfl⟩ := ht
    cases elem_arr he
    obtain ⟨l, ⟨u1, hu1, hl⟩, n, _, hv⟩ := hv
    cases toList_eq hl
    have := forms x _ _ _ _ hs ht1 hu1
    simp only [UTy.layout, Conforms] at this
    exact this.1 v (List.mem_of_getElem? hv)
  | .size x k => by
    intro ts t vs v hs ht hv
    simp only [typ, Option.bind_eq_some_iff, Option.map_eq_some_iff] at ht
    simp only [sem, Option.bind_eq_some_iff, Option.map_eq_some_iff] at hv
    obtain ⟨_, _, rfl⟩ := ht
    obtain ⟨_, _, rfl⟩ := hv
    exact conforms_sc
  | .array n b => by
    intro ts t vs v hs ht hv
    simp only [typ, Option.bind_eq_some_iff] at ht
    obtain ⟨k, _, ht⟩ := ht
    split at ht
    · obtain ⟨t, ht2, rfl⟩ := Option.map_eq_some_iff.1 ht
      simp only [sem, Option.bind_eq_some_iff] at hv
      obtain ⟨m, _, ws, hws, hv⟩ := hv
      obtain ⟨rfl, hrows⟩ := rows_eq hv
      simp only [UTy.layout, Conforms]
      refine ⟨fun w hw => ?_, hrows⟩
      obtain ⟨k, hk⟩ := List.getElem?_of_mem hw
      rw [mapOpt_getElem? hws k] at hk
      obtain ⟨j, _, hj⟩ := Option.bind_eq_some_iff.1 hk
      exact forms b (.sc .int :: ts) _ _ _ (.cons conforms_sc hs) ht2 hj
    · cases ht
  | .fold n z b => by
    intro ts t vs v hs ht hv
    simp only [typ, Option.bind_eq_some_iff] at ht
    obtain ⟨k, _, ht⟩ := ht
    split at ht
    · simp only [Option.bind_eq_some_iff] at ht
      obtain ⟨t0, ht2, t3, ht3, ht⟩ := ht
      split at ht
      · rename_i hsame
        cases ht
        cases UTy.same_eq hsame
        simp only [sem, Option.bind_eq_some_iff] at hv
        obtain ⟨m, _, v0, hv0, hloop⟩ := hv
        exact forms_loop (fun k _ v w hc hw => forms b (.sc .int :: _ :: ts) _ _ _ (.cons conforms_sc (.cons hc hs)) ht3 hw) (forms z _ _ _ _ hs ht2 hv0) hloop
      · cases ht
    · cases ht
  | .reduce x z b => by
    intro ts t vs v hs ht hv
    simp only [typ, Option.bind_eq_some_iff] at ht
    obtain ⟨t1, ⟨t0, ht1, hk⟩, t2, ht2, t3, ht3, ht⟩ := ht
    cases elem_arr hk
    split at ht
    · rename_i hsame
      cases ht
      rw [Bool.and_eq_true] at hsame
      cases UTy.same_eq hsame.1
      cases UTy.same_eq hsame.2
      simp only [sem, Option.bind_eq_some_iff] at hv
      obtain ⟨ys, ⟨u, hu, hys⟩, v0, hv0, hloop⟩ := hv
      cases toList_eq hys
      have hx := forms x _ _ _ _ hs ht1 hu
      simp only [UTy.layout, Conforms] at hx
      exact forms_loop (fun y hy v w hc hw => forms b _ _ _ _ (.cons hc (.cons (hx.1 y hy) hs)) ht3 hw) (forms z _ _ _ _ hs ht2 hv0) hloop
    · cases ht
  | .concat x y => by
    intro ts t vs v hs ht hv
    simp only [typ, Option.bind_eq_some_iff] at ht
    obtain ⟨t', ⟨t1, ht1, he⟩, t'', ⟨t2, ht2, he2⟩, ht⟩ := ht
    split at ht
    · rename_i hsame
      cases UTy.same_eq hsame
      cases ht
      cases elem_arr he
      cases elem_arr he2
      simp only [sem, Option.bind_eq_some_iff] at hv
      obtain ⟨l, ⟨u1, hu1, hl⟩, m, ⟨u2, hu2, hl2⟩, hv⟩ := hv
      cases toList_eq hl
      cases toList_eq hl2
      obtain ⟨rfl, hrows⟩ := rows_eq hv
      have hx := forms x _ _ _ _ hs ht1 hu1
      have hy := forms y _ _ _ _ hs ht2 hu2
      simp only [UTy.layout, Conforms] at hx hy ⊢
      exact ⟨fun w hw => (List.mem_append.1 hw).elim (hx.1 w) (hy.1 w), hrows⟩
    · cases ht
  | .record k fs => by
    intro ts t vs v hs ht hv
    simp only [typ, Option.bind_eq_some_iff] at ht
    obtain ⟨ps, hps, ht⟩ := ht
    split at ht
    · cases ht
      simp only [sem, Option.map_eq_some_iff] at hv
      obtain ⟨l, hl, rfl⟩ := hv
      simp only [UTy.layout, Conforms, true_and]
      exact formsF fs _ _ _ _ hs hps hl
    · cases ht
  | .field x n => by
    intro ts t vs v hs ht hv
    simp only [typ, Option.bind_eq_some_iff] at ht
    simp only [sem, Option.bind_eq_some_iff] at hv
    obtain ⟨t1, ht1, hf⟩ := ht
    obtain ⟨u, hu, hv⟩ := hv
    exact (forms x _ _ _ _ hs ht1 hu).field hf hv
  | .part x n => by
    intro ts t vs v hs ht hv
    simp only [typ, Option.bind_eq_some_iff] at ht
    simp only [sem, Option.bind_eq_some_iff] at hv
    obtain ⟨t1, ht1, hf⟩ := ht
    obtain ⟨u, hu, hv⟩ := hv
    exact (forms x _ _ _ _ hs ht1 hu).part hf hv
  | .auto _ _ => by
    intro ts t vs v hs ht hv
    simp [sem] at hv
  | .autoFold _ _ => by
    intro ts t vs v hs ht hv
    simp [sem] at hv
theorem formsF : ∀ P : SFields F, FormsF P
  | .nil => by
    intro ts t vs v hs ht hv
    simp only [typFields, Option.some.injEq] at ht
    simp only [semFields, Option.some.injEq] at hv
    subst ht hv
    simp [UFields.layout, ConformsF]
  | .cons n a rest => by
    intro ts t vs v hs ht hv
    simp only [typFields, Option.bind_eq_some_iff, Option.map_eq_some_iff] at ht
    simp only [semFields, Option.bind_eq_some_iff, Option.map_eq_some_iff] at hv
    obtain ⟨t1, ht1, ps, hps, rfl⟩ := ht
    obtain ⟨x, hx, l, hl, rfl⟩ := hv
    simp only [UFields.layout, ConformsF, true_and]
    exact ⟨forms a _ _ _ _ hs ht1 hx, formsF rest _ _ _ _ hs hps hl⟩
end

/-! ### Sizes that are left out -/

/-- The value of a component. -/
def Place.val (p : Place) (vs : List (PVal F)) : Option (PVal F) :=
  p.parts.foldl (fun v q => v.bind fun v => match q with
    | .inl i => partOf i v
    | .inr n => fieldOf n v) vs[p.loc]?

theorem sem_parts (vs : List (PVal F)) : ∀ (l : List (Nat ⊕ String)) (x : Script F),
    sem (l.foldl (fun x q => match q with | .inl i => .part x i | .inr n => .field x n) x) vs =
      l.foldl (fun v q => v.bind fun v => match q with | .inl i => partOf i v | .inr n => fieldOf n v) (sem x vs)
  | [], x => rfl
  | .inl i :: l, x => by
    rw [List.foldl_cons, List.foldl_cons, sem_parts vs l, sem]
  | .inr n :: l, x => by
    rw [List.foldl_cons, List.foldl_cons, sem_parts vs l, sem]

theorem sem_place (p : Place) (vs : List (PVal F)) : sem p.script vs = p.val vs := sem_parts vs p.parts (.loc p.loc)

theorem typ_parts (ts : List UTy) : ∀ (l : List (Nat ⊕ String)) (x : Script F),
    typ (l.foldl (fun x q => match q with | .inl i => .part x i | .inr n => .field x n) x) ts =
      l.foldl (fun t q => t.bind fun t => match q with | .inl i => t.part? i | .inr n => t.field? n) (typ x ts)
  | [], x => rfl
  | .inl i :: l, x => by
    rw [List.foldl_cons, List.foldl_cons, typ_parts ts l, typ]
  | .inr n :: l, x => by
    rw [List.foldl_cons, List.foldl_cons, typ_parts ts l, typ]

theorem typ_place (p : Place) (ts : List UTy) : typ (p.script : Script F) ts = p.type ts := typ_parts ts p.parts (.loc p.loc)

theorem place_type_drop (p : Place) (d : Nat) (ts : List UTy) : Place.type ⟨p.loc + d, p.parts⟩ ts = p.type (ts.drop d) := by
  simp only [Place.type, List.getElem?_drop, Nat.add_comm d]

theorem place_val_drop (p : Place) (d : Nat) (vs : List (PVal F)) : Place.val ⟨p.loc + d, p.parts⟩ vs = p.val (vs.drop d) := by
  simp only [Place.val, List.getElem?_drop, Nat.add_comm d]

/-- The type of nested comprehensions. -/
theorem typ_nested {b : Script F} {t : UTy} : ∀ {l : List (Place × Nat)} {d : Nat} {ts : List UTy},
    (∀ q ∈ l, ((q.1.type (ts.drop d)).bind UTy.elem?).isSome = true) → typ b (List.replicate l.length (.sc .int) ++ ts) = some t →
    typ (nested l d b) ts = some (UTy.arrs l.length t)
  | [], _, _, _, h => h
  | (p, k) :: l, d, ts, hl, h => by
    obtain ⟨te, hte⟩ := Option.isSome_iff_exists.1 (hl (p, k) (by simp))
    have ih := typ_nested (b := b) (t := t) (l := l) (d := d + 1) (ts := .sc .int :: ts) (fun q hq => hl q (by simp [hq]))
      (by rw [← replicate_push]; exact h)
    simp only [nested, typ, typ_place, place_type_drop, hte, Option.map_some, Option.bind_some, UTy.kind?, if_true, ih, List.length_cons, UTy.arrs]

mutual
/-- The type does not change when the sizes are filled in. -/
theorem typ_fill : ∀ (P : Script F) {ts : List UTy} {t : UTy}, typ P ts = some t → typ (fill P) ts = some t
  | .loc n, ts, t, h => h
  | .lit s, ts, t, h => h
  | .assign a b, ts, t, h => by
    simp only [typ, fill, Option.bind_eq_some_iff] at h ⊢
    obtain ⟨t1, h1, h2⟩ := h
    exact ⟨t1, typ_fill a h1, typ_fill b h2⟩
  | .un o a, ts, t, h => by
    simp only [typ, fill, Option.bind_eq_some_iff] at h ⊢
    obtain ⟨k, ⟨t1, h1, h2⟩, h3⟩ := h
    exact ⟨k, ⟨t1, typ_fill a h1, h2⟩, h3⟩
  | .bin o a b, ts, t, h => by
    simp only [typ, fill, Option.bind_eq_some_iff] at h ⊢
    obtain ⟨k, ⟨t1, h1, h2⟩, k', ⟨t2, h3, h4⟩, h5⟩ := h
    exact ⟨k, ⟨t1, typ_fill a h1, h2⟩, k', ⟨t2, typ_fill b h3, h4⟩, h5⟩
  | .choose a b d, ts, t, h => by
    simp only [typ, fill, Option.bind_eq_some_iff] at h ⊢
    obtain ⟨k, ⟨t1, h1, h2⟩, k', ⟨t2, h3, h4⟩, k'', ⟨t3, h5, h6⟩, h7⟩ := h
    exact ⟨k, ⟨t1, typ_fill a h1, h2⟩, k', ⟨t2, typ_fill b h3, h4⟩, k'', ⟨t3, typ_fill d h5, h6⟩, h7⟩
  | .item a b, ts, t, h => by
    simp only [typ, fill, Option.bind_eq_some_iff] at h ⊢
    obtain ⟨k, ⟨t1, h1, h2⟩, k', ⟨t2, h3, h4⟩, h5⟩ := h
    exact ⟨k, ⟨t1, typ_fill a h1, h2⟩, k', ⟨t2, typ_fill b h3, h4⟩, h5⟩
  | .size a k, ts, t, h => by
    simp only [typ, fill, Option.bind_eq_some_iff, Option.map_eq_some_iff] at h ⊢
    obtain ⟨k, ⟨t1, h1, h2⟩, h3⟩ := h
    exact ⟨k, ⟨t1, typ_fill a h1, h2⟩, h3⟩
  | .array n b, ts, t, h => by
    simp only [typ, fill, Option.bind_eq_some_iff] at h ⊢
    obtain ⟨k, ⟨t1, h1, h2⟩, h3⟩ := h
    refine ⟨k, ⟨t1, typ_fill n h1, h2⟩, ?_⟩
    split at h3
    · obtain ⟨t', h4, rfl⟩ := Option.map_eq_some_iff.1 h3
      rename_i hk
      rw [if_pos hk, typ_fill b h4]
      rfl
    · cases h3
  | .fold n z b, ts, t, h => by
    simp only [typ, fill, Option.bind_eq_some_iff] at h ⊢
    obtain ⟨k, ⟨t1, h1, h2⟩, h3⟩ := h
    refine ⟨k, ⟨t1, typ_fill n h1, h2⟩, ?_⟩
    split at h3
    · rename_i hk
      simp only [Option.bind_eq_some_iff] at h3
      obtain ⟨t0, h4, t', h5, h6⟩ := h3
      rw [if_pos hk, typ_fill z h4, Option.bind_some, typ_fill b h5, Option.bind_some, h6]
    · cases h3
  | .reduce x z b, ts, t, h => by
    simp only [typ, fill, Option.bind_eq_some_iff] at h ⊢
    obtain ⟨k, ⟨t1, h1, h2⟩, t2, h3, t3, h4, h5⟩ := h
    exact ⟨k, ⟨t1, typ_fill x h1, h2⟩, t2, typ_fill z h3, t3, typ_fill b h4, h5⟩
  | .concat a b, ts, t, h => by
    simp only [typ, fill, Option.bind_eq_some_iff] at h ⊢
    obtain ⟨k, ⟨t1, h1, h2⟩, k', ⟨t2, h3, h4⟩, h5⟩ := h
    exact ⟨k, ⟨t1, typ_fill a h1, h2⟩, k', ⟨t2, typ_fill b h3, h4⟩, h5⟩
  | .record k fs, ts, t, h => by
    simp only [typ, fill, Option.bind_eq_some_iff] at h ⊢
    obtain ⟨ps, h1, h2⟩ := h
    exact ⟨ps, typ_fillFields fs h1, h2⟩
  | .field x n, ts, t, h => by
    simp only [typ, fill, Option.bind_eq_some_iff] at h ⊢
    obtain ⟨t1, h1, h2⟩ := h
    exact ⟨t1, typ_fill x h1, h2⟩
  | .part x n, ts, t, h => by
    simp only [typ, fill, Option.bind_eq_some_iff] at h ⊢
    obtain ⟨t1, h1, h2⟩ := h
    exact ⟨t1, typ_fill x h1, h2⟩
  | .auto k b, ts, t, h => by
    simp only [typ, Option.bind_eq_some_iff] at h
    obtain ⟨l, hl, h⟩ := h
    split at h
    · rename_i hall
      obtain ⟨t', h3, rfl⟩ := Option.map_eq_some_iff.1 h
      have hlen : l.length = k + 1 := by rw [mapOpt_length hl, List.length_range]
      simp only [fill, hl]
      rw [← hlen]
      exact typ_nested (List.all_eq_true.1 hall) (by rw [hlen]; exact typ_fill b h3)
    · cases h
  | .autoFold z b, ts, t, h => by
    simp only [typ, Option.bind_eq_some_iff] at h
    obtain ⟨⟨p, k⟩, hq, te, ⟨tp, h1, h2⟩, t0, h3, t1, h4, h5⟩ := h
    simp only [fill, hq, typ, typ_place, h1, h2, Option.bind_some, Option.map_some, UTy.kind?, if_true, typ_fill z h3, typ_fill b h4, h5]
theorem typ_fillFields : ∀ (P : SFields F) {ts : List UTy} {t : UFields}, typFields P ts = some t → typFields (fillFields P) ts = some t
  | .nil, ts, t, h => h
  | .cons n a rest, ts, t, h => by
    simp only [typFields, fillFields, Option.bind_eq_some_iff, Option.map_eq_some_iff] at h ⊢
    obtain ⟨t1, h1, ps, h2, h3⟩ := h
    exact ⟨t1, typ_fill a h1, ps, typ_fillFields rest h2, h3⟩
end

/-! ### The number of elements along an axis -/

/-- The number of elements along an axis; a record with one field is like its field. -/
def axis : Nat → PVal F → Option Nat
  | 0, .arr l => some l.length
  | k + 1, .arr (v :: _) => axis k v
  | k, .record _ [(_, v)] => axis k v
  | _, _ => none
termination_by _ v => sizeOf v

theorem axis_none {k : Nat} {v : PVal F} (h1 : ∀ l, k = 0 → v = .arr l → False) (h2 : ∀ k' w l, k = k' + 1 → v = .arr (w :: l) → False)
    (h3 : ∀ r n w, v = .record r [(n, w)] → False) : axis k v = none := by
  unfold axis
  split
  · exact (h1 _ rfl rfl).elim
  · exact (h2 _ _ _ rfl rfl).elim
  · exact (h3 _ _ _ rfl).elim
  · rfl

theorem axis_extent {k : Nat} : ∀ {v : PVal F} {m : Nat}, extent k v = some m → axis k v = some m := by
  induction k with
  | zero =>
    intro v m h
    cases v with
    | arr l => simpa [extent, axis] using h
    | _ => simp [extent] at h
  | succ k ih =>
    intro v m h
    cases v with
    | arr l =>
      cases l with
      | nil => simp [extent] at h
      | cons v l => rw [axis]; exact ih (by simpa [extent] using h)
    | _ => simp [extent] at h

theorem axis_dim (k : Nat) (v : PVal F) : ∀ {l : Layout} {d : D F} {m : Nat}, view l d = some v → axis k v = some m → Val.dim k d = some m := by
  induction k, v using axis.induct with
  | case1 ws =>
    intro l d m hv h
    simp only [axis, Option.some.injEq] at h
    cases l <;> cases d <;> simp only [view, Option.map_eq_some_iff, reduceCtorEq, Option.some.injEq, and_false, exists_false,
      PVal.arr.injEq] at hv
    obtain ⟨_, h1, rfl⟩ := hv
    rw [Val.dim, ← h, mapOpt_length h1]
  | case2 k w ws ih =>
    intro l d m hv h
    rw [axis] at h
    cases l <;> cases d <;> simp only [view, Option.map_eq_some_iff, reduceCtorEq, Option.some.injEq, and_false, exists_false,
      PVal.arr.injEq] at hv
    rename_i sub vs
    obtain ⟨_, h1, rfl⟩ := hv
    cases vs with
    | nil => simp [Phi.mapOpt] at h1
    | cons u us =>
      simp only [Phi.mapOpt, Option.bind_eq_some_iff, Option.some.injEq, List.cons.injEq] at h1
      obtain ⟨w', h2, _, _, rfl, _⟩ := h1
      exact ih h2 h
  | case3 k r n w ih =>
    intro l d m hv h
    rw [axis] at h
    cases l with
    | struct r' ls =>
      simp only [view, Option.map_eq_some_iff, PVal.record.injEq] at hv
      obtain ⟨fs, h1, _, rfl⟩ := hv
      match ls, h1 with
      | .nil, h1 => simp [viewFields] at h1
      | .cons n' l' .nil, h1 =>
        simp only [viewFields, Option.map_eq_some_iff, List.cons.injEq, Prod.mk.injEq, and_true] at h1
        obtain ⟨x, h2, _, rfl⟩ := h1
        exact ih h2 h
      | .cons n' l' (.cons m' l'' rest), h1 =>
        cases d with
        | pair a b =>
          simp only [viewFields, Option.bind_eq_some_iff, Option.map_eq_some_iff, List.cons.injEq] at h1
          obtain ⟨x, _, xs, h2, _, rfl⟩ := h1
          cases rest with
          | nil => simp [viewFields] at h2
          | cons => cases b <;> simp [viewFields, Option.bind_eq_some_iff] at h2
        | _ => simp [viewFields] at h1
    | atom => cases d <;> simp [view] at hv
    | vec => cases d <;> simp [view] at hv
  | case4 k v h1 h2 h3 =>
    intro l d m hv h
    rw [axis_none h1 h2 h3] at h
    cases h

theorem axis_same (k : Nat) (v : PVal F) : ∀ {w : PVal F}, PVal.SameShape v w → axis k v = axis k w := by
  induction k, v using axis.induct with
  | case1 ws =>
    intro w h
    cases w with
    | arr us =>
      simp only [PVal.SameShape] at h
      rw [axis, axis, Option.some.injEq]
      induction ws generalizing us with
      | nil => cases us <;> simp [PVal.SameShapes] at h ⊢
      | cons a ws ih =>
        cases us with
        | nil => simp [PVal.SameShapes] at h
        | cons b us =>
          simp only [PVal.SameShapes] at h
          simp [ih us h.2]
    | _ => simp [PVal.SameShape] at h
  | case2 k a ws ih =>
    intro w h
    cases w with
    | arr us =>
      cases us with
      | nil => simp [PVal.SameShape, PVal.SameShapes] at h
      | cons b us =>
        simp only [PVal.SameShape, PVal.SameShapes] at h
        rw [axis, axis]
        exact ih h.1
    | _ => simp [PVal.SameShape] at h
  | case3 k r n a ih =>
    intro w h
    cases w with
    | record r' fs =>
      match fs, h with
      | [], h => simp [PVal.SameShape, PVal.SameShapeFields] at h
      | [(n', b)], h =>
        simp only [PVal.SameShape, PVal.SameShapeFields] at h
        rw [axis, axis]
        exact ih h.2.2.1
      | _ :: _ :: _, h => simp [PVal.SameShape, PVal.SameShapeFields] at h
    | _ => simp [PVal.SameShape] at h
  | case4 k v h1 h2 h3 =>
    intro w h
    rw [axis_none h1 h2 h3, axis_none]
    · rintro us rfl rfl
      cases v with
      | arr ws => exact h1 ws rfl rfl
      | _ => simp [PVal.SameShape] at h
    · rintro k' b us rfl rfl
      cases v with
      | arr ws =>
        cases ws with
        | nil => simp [PVal.SameShape, PVal.SameShapes] at h
        | cons a ws => exact h2 k' a ws rfl rfl
      | _ => simp [PVal.SameShape] at h
    · rintro r n b rfl
      cases v with
      | record r' fs =>
        match fs, h, h3 with
        | [], h, h3 => simp [PVal.SameShape, PVal.SameShapeFields] at h
        | [(n', b)], h, h3 => exact h3 _ _ _ rfl
        | a :: c :: d, h, h3 => simp [PVal.SameShape, PVal.SameShapeFields] at h
      | _ => simp [PVal.SameShape] at h

end Verif.Frontend
