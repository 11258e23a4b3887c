import Verif.Proofs.Scale
import Verif.Model.Median

/-!
# Estimators of quantiles and of the density under multiplication by a factor

Helpers for C99.
-/

set_option linter.unusedSectionVars false

namespace Acc

/-! ### Two runs of a set -/

/-- The same calls, with related samples. -/
def Op.Rel {X Q : Type} (q : X → X → Prop) : Op X Q → Op X Q → Prop
  | .push x, .push y => q x y
  | .query a, .query b => a = b
  | _, _ => False

/-- Two sets whose states stay related give related answers. -/
theorem RMachine.answer_rel {X Q S T A B : Type} {M : RMachine X Q S A} {N : RMachine X Q T B} {q : X → X → Prop}
    {r : S → T → Prop} {a : A → B → Prop} (h0 : r M.init N.init)
    (hp : ∀ s t x y, r s t → q x y → Res.Lift r (M.push s x) (N.push t y))
    (hq : ∀ s t k, r s t → Res.Lift (fun u v : _ × _ => r u.1 v.1 ∧ a u.2 v.2) (M.query s k) (N.query t k))
    {h g : List (Op X Q)} (hh : List.Forall₂ (Op.Rel q) h g) (k : Q) : Res.Lift a (M.answer h k) (N.answer g k) := by
  have he : ∀ {s t}, r s t → Res.Lift r (M.exec s h) (N.exec t g) := by
    induction hh with
    | nil => exact fun h => h
    | @cons o o' _ _ ho _ ih =>
      intro s t hs
      refine Res.Lift.bind ?_ fun _ _ h => ih h
      cases o <;> cases o'
      · exact hp _ _ _ _ hs ho
      · exact ho.elim
      · exact ho.elim
      · have : _ = _ := ho
        subst this
        exact (hq _ _ _ hs).bind fun _ _ h => h.1
  exact (he h0).bind fun _ _ h => (hq _ _ k h).bind fun _ _ h => h.2

/-! ### Vectors -/

section
variable {α β : Type} {r : α → β → Prop} {l : List α} {m : List β}

theorem Lift_getAt (h : List.Forall₂ r l m) (i : ℕ) : Res.Lift r (getAt l i) (getAt m i) := by
  induction h generalizing i with
  | nil => simp [getAt, Res.Lift]
  | cons a _ ih =>
    cases i with
    | zero => simpa [getAt, Res.Lift] using a
    | succ i => simpa [getAt] using ih i

theorem forall₂_set (h : List.Forall₂ r l m) (i : ℕ) {a : α} {b : β} (k : r a b) : List.Forall₂ r (l.set i a) (m.set i b) := by
  induction h generalizing i with
  | nil => exact .nil
  | cons c t ih =>
    cases i with
    | zero => exact .cons k t
    | succ i => exact .cons c (ih i)

theorem Lift_setAt (h : List.Forall₂ r l m) (i : ℕ) {a : α} {b : β} (k : r a b) :
    Res.Lift (List.Forall₂ r) (setAt l i a) (setAt m i b) := by
  unfold setAt
  rw [h.length_eq]
  split_ifs
  · exact forall₂_set h i k
  · trivial

theorem Lift_modifyAt (h : List.Forall₂ r l m) (i : ℕ) {f : α → α} {g : β → β} (k : ∀ a b, r a b → r (f a) (g b)) :
    Res.Lift (List.Forall₂ r) (modifyAt l i f) (modifyAt m i g) :=
  (Lift_getAt h i).bind fun _ _ h' => Lift_setAt h i (k _ _ h')

theorem Lift_getBack (h : List.Forall₂ r l m) (k j : ℕ) : Res.Lift r (getBack l k j) (getBack m k j) := by
  unfold getBack
  split_ifs
  · exact Lift_getAt h _
  · trivial

theorem Lift_foldRes {S T A B : Type} {q : S → T → Prop} {p : A → B → Prop} {f : S → A → Res S} {g : T → B → Res T}
    (k : ∀ s t a b, q s t → p a b → Res.Lift q (f s a) (g t b)) {as : List A} {bs : List B} (h : List.Forall₂ p as bs) {s : S}
    {t : T} (hs : q s t) : Res.Lift q (foldRes f s as) (foldRes g t bs) := by
  induction h generalizing s t with
  | nil => exact hs
  | cons a _ ih => exact (k _ _ _ _ hs a).bind fun _ _ h => ih h

theorem Lift_mapRes {A B C D : Type} {q : C → D → Prop} {p : A → B → Prop} {f : A → Res C} {g : B → Res D}
    (k : ∀ a b, p a b → Res.Lift q (f a) (g b)) {as : List A} {bs : List B} (h : List.Forall₂ p as bs) :
    Res.Lift (List.Forall₂ q) (mapRes f as) (mapRes g bs) := by
  induction h with
  | nil => exact .nil
  | cons a _ ih => exact (k _ _ a).bind fun _ _ h => ih.bind fun _ _ t => show Res.Lift _ (.val _) (.val _) from .cons h t

theorem forall₂_eq_refl (l : List α) : List.Forall₂ (· = ·) l l := by
  induction l with
  | nil => exact .nil
  | cons _ _ ih => exact .cons rfl ih

theorem forall₂_refl {r : α → α → Prop} (hr : ∀ a, r a a) (l : List α) : List.Forall₂ r l l := by
  induction l with
  | nil => exact .nil
  | cons _ _ ih => exact .cons (hr _) ih

theorem Lift_upperBound [LT α] [DecidableLT α] [LT β] [DecidableLT β]
    (hr : ∀ a b a' b', r a b → r a' b' → (a < a' ↔ b < b')) (h : List.Forall₂ r l m) {x : α} {y : β} (k : r x y) :
    upperBound l x = upperBound m y := by
  have hf : l.findIdx (fun e => decide (x < e)) = m.findIdx (fun e => decide (y < e)) := by
    induction h with
    | nil => rfl
    | cons a _ ih =>
      rw [List.findIdx_cons, List.findIdx_cons, ih, decide_eq_decide.2 (hr _ _ _ _ k a)]
  have hall : ∀ {l : List α} {m : List β}, List.Forall₂ r l m → l.all (fun e => decide (x < e)) = m.all (fun e => decide (y < e)) := by
    intro l m h
    induction h with
    | nil => rfl
    | cons a _ ih => rw [List.all_cons, List.all_cons, ih, decide_eq_decide.2 (hr _ _ _ _ k a)]
  unfold upperBound
  dsimp only
  rw [hf, hall (List.forall₂_drop _ h)]

end

section
variable {K : Type} [Field K] [LinearOrder K] [IsStrictOrderedRing K] {R : Rounding K} {s : K}

local notation "Sc" => List.Forall₂ (Scaled (R := R) s)

theorem Scaled.le_iff_pos {a b a' b' : Fl R} (hs : 0 < s) (h : Scaled s a b) (k : Scaled s a' b') : b ≤ b' ↔ a ≤ a' := by
  rw [← not_lt, ← not_lt, Scaled.lt_iff_pos hs k h]

theorem scaled_orderedInsert (hs : 0 < s) {l m : List (Fl R)} (h : Sc l m) {x y : Fl R} (k : Scaled s x y) :
    Sc (l.orderedInsert (· ≤ ·) x) (m.orderedInsert (· ≤ ·) y) := by
  induction h with
  | nil => exact .cons k .nil
  | @cons a b _ _ ha ht ih =>
    rw [List.orderedInsert_cons, List.orderedInsert_cons]
    by_cases c : x ≤ a
    · rw [if_pos c, if_pos ((k.le_iff_pos hs ha).2 c)]
      exact .cons k (.cons ha ht)
    · rw [if_neg c, if_neg (fun d => c ((k.le_iff_pos hs ha).1 d))]
      exact .cons ha ih

theorem scaled_insertionSort (hs : 0 < s) {l m : List (Fl R)} (h : Sc l m) :
    Sc (l.insertionSort (· ≤ ·)) (m.insertionSort (· ≤ ·)) := by
  induction h with
  | nil => exact .nil
  | cons a _ ih => exact scaled_orderedInsert hs ih a

theorem scaled_upperBound (hs : 0 < s) {l m : List (Fl R)} (h : Sc l m) {x y : Fl R} (k : Scaled s x y) :
    upperBound l x = upperBound m y :=
  Lift_upperBound (fun _ _ _ _ h k => (Scaled.lt_iff_pos hs h k).symm) h k

/-! ### P-square -/

theorem scaled_psqCell (hs : 0 < s) {l m : List (Fl R)} (h : Sc l m) {x y : Fl R} (k : Scaled s x y) :
    Res.Lift (fun u v : List (Fl R) × ℕ × Bool => Sc u.1 v.1 ∧ u.2 = v.2) (psqCell l x) (psqCell m y) := by
  unfold psqCell
  rw [h.length_eq]
  refine (Lift_getAt h 0).bind fun a b h0 => ?_
  by_cases c : x < a
  · rw [if_pos c, if_pos ((Scaled.lt_iff_pos hs k h0).2 c)]
    exact (Lift_setAt h 0 k).bind fun _ _ h' => ⟨h', rfl⟩
  · rw [if_neg c, if_neg (fun d => c ((Scaled.lt_iff_pos hs k h0).1 d))]
    refine (Lift_getAt h _).bind fun a b h0 => ?_
    by_cases c : a ≤ x
    · rw [if_pos c, if_pos ((h0.le_iff_pos hs k).2 c)]
      exact (Lift_setAt h _ k).bind fun _ _ h' => ⟨h', rfl⟩
    · rw [if_neg c, if_neg (fun d => c ((h0.le_iff_pos hs k).1 d)), scaled_upperBound hs h k]
      exact (Res.Lift.refl (r := (· = ·)) (fun _ => rfl) _).bind fun _ _ e => ⟨h, by rw [e]⟩

theorem scaled_psqAdjust1 (hs : R.Exact s) (h0 : 0 < s) (des : List (Fl R)) {u v : List (Fl R) × List (Fl R)}
    (h : Sc u.1 v.1 ∧ u.2 = v.2) (i : ℕ) :
    Res.Lift (fun u v : List (Fl R) × List (Fl R) => Sc u.1 v.1 ∧ u.2 = v.2) (psqAdjust1 des u i) (psqAdjust1 des v i) := by
  obtain ⟨l, n⟩ := u
  obtain ⟨m, n'⟩ := v
  obtain ⟨h, e⟩ := h
  dsimp only at h e
  subst e
  have rf : ∀ {α : Type} (x : Res α), Res.Lift (· = ·) x x := fun x => Res.Lift.refl (fun _ => rfl) x
  unfold psqAdjust1
  refine (rf _).bind fun di _ e => ?_; subst e
  refine (rf _).bind fun ni _ e => ?_; subst e
  refine (rf _).bind fun np _ e => ?_; subst e
  refine (rf _).bind fun nm _ e => ?_; subst e
  refine (Lift_getAt h i).bind fun qi qi' hqi => (Lift_getAt h _).bind fun qp qp' hqp => (Lift_getAt h _).bind fun qm qm' hqm => ?_
  dsimp only
  by_cases c : (1 ≤ di - ni ∧ 1 < np - ni) ∨ (di - ni ≤ -1 ∧ nm - ni < -1)
  · rw [if_pos c, if_pos c]
    have hp := (hqp.sub hs hqi).fdiv_self hs (np - ni)
    have hm := (hqm.sub hs hqi).fdiv_self hs (nm - ni)
    generalize fdiv (qp - qi) (np - ni) = p1 at *
    generalize fdiv (qp' - qi') (np - ni) = p2 at *
    generalize fdiv (qm - qi) (nm - ni) = m1 at *
    generalize fdiv (qm' - qi') (nm - ni) = m2 at *
    have hlin : Res.Lift (Scaled s)
        (if 0 < di - ni then (do let a ← p1; pure (qi + a)) else (do let b ← m1; pure (qi - b)) : Res (Fl R))
        (if 0 < di - ni then (do let a ← p2; pure (qi' + a)) else (do let b ← m2; pure (qi' - b)) : Res (Fl R)) := by
      split_ifs
      · exact hp.bind fun _ _ h => show Res.Lift _ (.val _) (.val _) from hqi.add hs h
      · exact hm.bind fun _ _ h => show Res.Lift _ (.val _) (.val _) from hqi.sub hs h
    generalize (if 0 < di - ni then (do let a ← p1; pure (qi + a)) else (do let b ← m1; pure (qi - b)) : Res (Fl R)) = l1 at *
    generalize (if 0 < di - ni then (do let a ← p2; pure (qi' + a)) else (do let b ← m2; pure (qi' - b)) : Res (Fl R)) = l2 at *
    generalize (if 0 < di - ni then 1 else -1 : Fl R) = sgn at *
    have hfin : ∀ q q', Scaled s q q' → Res.Lift (fun u v : List (Fl R) × List (Fl R) => Sc u.1 v.1 ∧ u.2 = v.2)
        (do let hs ← setAt l i q; let ns ← setAt n i (ni + sgn); pure (hs, ns))
        (do let hs ← setAt m i q'; let ns ← setAt n i (ni + sgn); pure (hs, ns)) := fun q q' hq =>
      (Lift_setAt h i hq).bind fun _ _ h => (rf _).bind fun _ _ e => show Res.Lift _ (.val _) (.val _) from ⟨h, e⟩
    have hpar : Res.Lift (Scaled s)
        (do let c ← fdiv sgn (np - ni - (nm - ni)); let a ← p1; let b ← m1
            pure (qi + c * ((sgn - (nm - ni)) * a + (np - ni - sgn) * b)) : Res (Fl R))
        (do let c ← fdiv sgn (np - ni - (nm - ni)); let a ← p2; let b ← m2
            pure (qi' + c * ((sgn - (nm - ni)) * a + (np - ni - sgn) * b)) : Res (Fl R)) := by
      refine (rf _).bind fun c _ e => ?_; subst e
      exact hp.bind fun _ _ a => hm.bind fun _ _ b => show Res.Lift _ (.val _) (.val _) from
        hqi.add hs (((a.self_mul hs _).add hs (b.self_mul hs _)).self_mul hs _)
    generalize (do let c ← fdiv sgn (np - ni - (nm - ni)); let a ← p1; let b ← m1
                   pure (qi + c * ((sgn - (nm - ni)) * a + (np - ni - sgn) * b)) : Res (Fl R)) = h1 at *
    generalize (do let c ← fdiv sgn (np - ni - (nm - ni)); let a ← p2; let b ← m2
                   pure (qi' + c * ((sgn - (nm - ni)) * a + (np - ni - sgn) * b)) : Res (Fl R)) = h2 at *
    cases h1 <;> cases h2 <;> first | exact hpar.elim | exact hlin.bind hfin | skip
    rename_i v v'
    have hv : Scaled s v v' := hpar
    have e1 := Scaled.lt_iff_pos h0 hqm hv
    have e2 := Scaled.lt_iff_pos h0 hv hqp
    dsimp only
    simp only [e1, e2]
    split_ifs
    · exact hfin _ _ hv
    · exact hlin.bind hfin
  · rw [if_neg c, if_neg c]
    exact ⟨h, rfl⟩

theorem scaled_psqAdjust (hs : R.Exact s) (h0 : 0 < s) (des : List (Fl R)) {u v : List (Fl R) × List (Fl R)}
    (h : Sc u.1 v.1 ∧ u.2 = v.2) :
    Res.Lift (fun u v : List (Fl R) × List (Fl R) => Sc u.1 v.1 ∧ u.2 = v.2) (psqAdjust des u) (psqAdjust des v) := by
  unfold psqAdjust
  rw [h.1.length_eq]
  exact Lift_foldRes (p := (· = ·)) (fun _ _ i _ h e => e ▸ scaled_psqAdjust1 hs h0 des h i) (forall₂_eq_refl _) h

/-- Two P-square accumulators: the heights multiplied by `s`, everything else equal. -/
structure PsqRel (s : K) (a b : PsqSt (Fl R)) : Prop where
  cnt : a.cnt = b.cnt
  heights : List.Forall₂ (Scaled s) a.heights b.heights
  pos : a.pos = b.pos
  des : a.des = b.des

theorem psqRel_init (incr des : List (Fl R)) : PsqRel s (psqInit incr des) (psqInit incr des) :=
  ⟨rfl, by
    show Sc (incr.map fun _ => 0) (incr.map fun _ => 0)
    induction incr with
    | nil => exact .nil
    | cons _ _ ih => exact .cons Scaled.zero ih, rfl, rfl⟩

theorem psqRel_push (hs : R.Exact s) (h0 : 0 < s) (incr : List (Fl R)) {a b : PsqSt (Fl R)} (h : PsqRel s a b) {x y : Fl R}
    (k : Scaled s x y) : Res.Lift (PsqRel s) (psqPush incr a x) (psqPush incr b y) := by
  obtain ⟨ca, ha, pa, da⟩ := a
  obtain ⟨cb, hb, pb, db⟩ := b
  obtain ⟨e1, h, e2, e3⟩ := h
  dsimp only at e1 h e2 e3
  subst e1 e2 e3
  unfold psqPush psqStep
  dsimp only
  by_cases c : ca + 1 ≤ incr.length
  · rw [if_pos c, if_pos c]
    refine (Lift_setAt h _ k).bind fun _ _ h => show Res.Lift _ (.val _) (.val _) from ⟨rfl, ?_, rfl, rfl⟩
    dsimp only
    split_ifs
    · exact scaled_insertionSort h0 h
    · exact h
  · rw [if_neg c, if_neg c]
    refine (scaled_psqCell h0 h k).bind fun p q hc => ?_
    rw [hc.2]
    exact (scaled_psqAdjust hs h0 _ (u := (p.1, psqBump q.2.1 1 pa)) (v := (q.1, psqBump q.2.1 1 pa)) ⟨hc.1, rfl⟩).bind
      fun _ _ h => show Res.Lift (PsqRel s) (.val _) (.val _) from ⟨rfl, h.1, h.2, rfl⟩

/-- Heights or positions of a histogram multiplied by `s`, the fractions equal. -/
def HistRel (s : K) (a b : List (Fl R × Res (Fl R))) : Prop := List.Forall₂ (fun p q => Scaled s p.1 q.1 ∧ p.2 = q.2) a b

theorem scaled_psqHist {l m : List (Fl R)} (h : Sc l m) (pos : List (Fl R)) (n : Fl R) :
    Res.Lift (HistRel s) (psqHist l pos n) (psqHist m pos n) := by
  unfold psqHist
  rw [h.length_eq]
  refine Lift_mapRes (p := (· = ·)) (fun i _ e => ?_) (forall₂_eq_refl _)
  subst e
  exact (Lift_getAt h i).bind fun _ _ h => (Res.Lift.refl (r := (· = ·)) (fun _ => rfl) _).bind fun _ _ e =>
    show Res.Lift _ (.val _) (.val _) from ⟨h, by rw [e]⟩

theorem scaled_epsqResult {l m : List (Fl R)} (h : Sc l m) (q : ℕ) : Res.Lift Sc (epsqResult q l) (epsqResult q m) :=
  Lift_mapRes (p := (· = ·)) (fun _ _ e => e ▸ Lift_getAt h _) (forall₂_eq_refl _)

theorem scaled_interpLinear (hs : R.Exact s) (p p0 p1 : Fl R) {a b a' b' : Fl R} (ha : Scaled s a a') (hb : Scaled s b b') :
    Res.Lift (Scaled s) (interpLinear p p0 p1 a b) (interpLinear p p0 p1 a' b') :=
  ((hb.sub hs ha).fdiv_self hs _).bind fun _ _ c => show Res.Lift _ (.val _) (.val _) from
    (c.mul_self hs p).add hs (hb.sub hs (c.self_mul hs p1))

theorem scaled_interpQuadratic (hs : R.Exact s) (p p0 p1 p2 : Fl R) {a b c a' b' c' : Fl R} (ha : Scaled s a a')
    (hb : Scaled s b b') (hc : Scaled s c c') :
    Res.Lift (Scaled s) (interpQuadratic p p0 p1 p2 a b c) (interpQuadratic p p0 p1 p2 a' b' c') := by
  have rf : ∀ {α : Type} (x : Res α), Res.Lift (· = ·) x x := fun x => Res.Lift.refl (fun _ => rfl) x
  unfold interpQuadratic
  refine ((hc.sub hs hb).fdiv_self hs _).bind fun _ _ h21 => ((hb.sub hs ha).fdiv_self hs _).bind fun _ _ h10 => ?_
  refine (rf _).bind fun q _ e => ?_; subst e
  refine (rf _).bind fun q' _ e => ?_; subst e
  refine ((h21.sub hs h10).fdiv_self hs _).bind fun _ _ A => show Res.Lift _ (.val _) (.val _) from ?_
  have B := h21.sub hs (A.mul_self hs q)
  have C := (hc.sub hs ((A.mul_self hs p2).mul_self hs p2)).sub hs (B.mul_self hs p2)
  exact (((A.mul_self hs p).mul_self hs p).add hs (B.mul_self hs p)).add hs C

theorem scaled_epsqQuantile (hs : R.Exact s) (kind : Interp) (nan : Bool) (ps : List (Fl R)) {l m : List (Fl R)} (h : Sc l m)
    (p : Fl R) : Res.Lift (Scaled s) (epsqQuantile kind nan ps l p) (epsqQuantile kind nan ps m p) := by
  have rf : ∀ {α : Type} (x : Res α), Res.Lift (· = ·) x x := fun x => Res.Lift.refl (fun _ => rfl) x
  unfold epsqQuantile
  refine (rf _).bind fun d _ e => ?_; subst e
  refine (rf _).bind fun f _ e => ?_; subst e
  refine (rf _).bind fun la _ e => ?_; subst e
  by_cases c : p < f ∨ la < p
  · rw [if_pos c, if_pos c]
    cases nan <;> trivial
  · rw [if_neg c, if_neg c]
    refine (rf _).bind fun pi _ e => ?_; subst e
    by_cases c : pi = p
    · rw [if_pos c, if_pos c]
      exact Lift_getAt h d
    · rw [if_neg c, if_neg c]
      cases kind
      · dsimp only
        refine (rf _).bind fun p0 _ e => ?_; subst e
        exact (Lift_getAt h d).bind fun _ _ h1 => (Lift_getBack h d 1).bind fun _ _ h0 => scaled_interpLinear hs _ _ _ h0 h1
      · dsimp only
        refine (rf _).bind fun pm _ e => ?_; subst e
        by_cases c : (d = 1 ∨ pi - p ≤ p - pm) ∧ d ≠ ps.length - 1
        · rw [if_pos c, if_pos c]
          refine (rf _).bind fun p2 _ e => ?_; subst e
          exact (Lift_getBack h d 1).bind fun _ _ a => (Lift_getAt h d).bind fun _ _ b => (Lift_getAt h _).bind fun _ _ c =>
            scaled_interpQuadratic hs _ _ _ _ a b c
        · rw [if_neg c, if_neg c]
          refine (rf _).bind fun p0 _ e => ?_; subst e
          exact (Lift_getBack h d 2).bind fun _ _ a => (Lift_getBack h d 1).bind fun _ _ b => (Lift_getAt h _).bind fun _ _ c =>
            scaled_interpQuadratic hs _ _ _ _ a b c

theorem scaled_asResult {S T : Type} {r : S → T → Prop} {a : S} {b : T} (hr : r a b) {x y : Res (Fl R)}
    (h : Res.Lift (Scaled s) x y) :
    Res.Lift (fun u v : _ × _ => r u.1 v.1 ∧ Res.Lift (Scaled s) u.2 v.2) (asResult a x) (asResult b y) := by
  cases x <;> cases y <;> first | exact h.elim | exact trivial | exact ⟨hr, h⟩

/-! ### P-square with weights -/

/-- Samples multiplied by `s`, weights equal. -/
def PairRel (s : K) (p q : Fl R × Fl R) : Prop := Scaled s p.1 q.1 ∧ p.2 = q.2

theorem scaled_minIdx (hs : 0 < s) {l m : List (Fl R × Fl R)} (h : List.Forall₂ (PairRel s) l m) : minIdx l = minIdx m := by
  have hall : ∀ {a b : Fl R × Fl R}, PairRel s a b →
      (l.all fun c => decide (a.1 ≤ c.1)) = m.all fun c => decide (b.1 ≤ c.1) := by
    intro a b hab
    induction h with
    | nil => rfl
    | cons c _ ih => rw [List.all_cons, List.all_cons, ih, decide_eq_decide.2 (hab.1.le_iff_pos hs c.1)]
  have key : ∀ {k n : List (Fl R × Fl R)}, List.Forall₂ (PairRel s) k n →
      k.findIdx (fun a => l.all fun b => decide (a.1 ≤ b.1)) = n.findIdx (fun a => m.all fun b => decide (a.1 ≤ b.1)) := by
    intro k n hk
    induction hk with
    | nil => rfl
    | cons a _ ih => rw [List.findIdx_cons, List.findIdx_cons, ih, hall a]
  exact key h

theorem forall₂_getElem? {α β : Type} {r : α → β → Prop} {l : List α} {m : List β} (h : List.Forall₂ r l m) (i : ℕ) :
    (l[i]? = none ∧ m[i]? = none) ∨ ∃ a b, l[i]? = some a ∧ m[i]? = some b ∧ r a b := by
  induction h generalizing i with
  | nil => exact .inl ⟨rfl, rfl⟩
  | @cons a b _ _ h _ ih =>
    cases i with
    | zero => exact .inr ⟨a, b, rfl, rfl, h⟩
    | succ i => simpa using ih i

theorem scaled_selSort (hs : 0 < s) (n : ℕ) {l m : List (Fl R × Fl R)} (h : List.Forall₂ (PairRel s) l m) :
    List.Forall₂ (PairRel s) (selSort n l) (selSort n m) := by
  induction n generalizing l m with
  | zero => cases h <;> first | exact .nil | exact .cons ‹_› ‹_›
  | succ n ih =>
    cases h with
    | nil => exact .nil
    | @cons a b t t' ha ht =>
      have e := scaled_minIdx hs (.cons ha ht)
      unfold selSort
      rw [e]
      cases minIdx (b :: t') with
      | zero => exact .cons ha (ih ht)
      | succ d =>
        rcases forall₂_getElem? ht d with ⟨e1, e2⟩ | ⟨x, y, e1, e2, hxy⟩
        · simp only [e1, e2]
          exact .cons ha (ih ht)
        · simp only [e1, e2]
          exact .cons hxy (ih (forall₂_set ht d ha))

theorem forall₂_zip {l m n : List (Fl R)} (h : Sc l m) : List.Forall₂ (PairRel s) (l.zip n) (m.zip n) := by
  induction h generalizing n with
  | nil => exact .nil
  | cons a _ ih =>
    cases n with
    | nil => exact .nil
    | cons b n => exact .cons ⟨a, rfl⟩ ih

theorem forall₂_unzip {l m : List (Fl R × Fl R)} (h : List.Forall₂ (PairRel s) l m) :
    Sc (l.map Prod.fst) (m.map Prod.fst) ∧ l.map Prod.snd = m.map Prod.snd := by
  induction h with
  | nil => exact ⟨.nil, rfl⟩
  | cons a _ ih => exact ⟨.cons a.1 ih.1, by rw [List.map_cons, List.map_cons, ih.2, a.2]⟩

/-- Two weighted P-square accumulators. -/
structure WPsqRel (s : K) (a b : WPsqSt (Fl R)) : Prop where
  cnt : a.cnt = b.cnt
  wsum : a.wsum = b.wsum
  heights : List.Forall₂ (Scaled s) a.heights b.heights
  pos : a.pos = b.pos

theorem wpsqRel_init (m : ℕ) : WPsqRel s (wpsqInit m : WPsqSt (Fl R)) (wpsqInit m) :=
  ⟨rfl, rfl, by
    show Sc (List.replicate m 0) (List.replicate m 0)
    induction m with
    | zero => exact .nil
    | succ m ih => exact .cons Scaled.zero ih, rfl⟩

theorem wpsqRel_push (hs : R.Exact s) (h0 : 0 < s) (m summed : ℕ) (desired : Fl R → Fl R → Res (List (Fl R)))
    {a b : WPsqSt (Fl R)} (h : WPsqRel s a b) {x y : Fl R × Fl R} (k : PairRel s x y) :
    Res.Lift (WPsqRel s) (wpsqPush m summed desired a x) (wpsqPush m summed desired b y) := by
  obtain ⟨ca, wa, ha, pa⟩ := a
  obtain ⟨cb, wb, hb, pb⟩ := b
  obtain ⟨x, w⟩ := x
  obtain ⟨y, w'⟩ := y
  obtain ⟨e1, e2, h, e3⟩ := h
  obtain ⟨k, e4⟩ := k
  dsimp only at e1 h e2 e3 k e4
  subst e1 e2 e3 e4
  have rf : ∀ {α : Type} (x : Res α), Res.Lift (· = ·) x x := fun x => Res.Lift.refl (fun _ => rfl) x
  unfold wpsqPush wpsqStep
  dsimp only
  by_cases c : ca + 1 ≤ m
  · rw [if_pos c, if_pos c]
    refine (Lift_setAt h _ k).bind fun l l' h => ?_
    refine (rf _).bind fun n _ e => ?_; subst e
    by_cases c : ca + 1 = m
    · rw [if_pos c, if_pos c]
      have hz := scaled_selSort h0 m (forall₂_zip (n := n) h)
      obtain ⟨hf, hw⟩ := forall₂_unzip hz
      exact show Res.Lift (WPsqRel s) (.val _) (.val _) from ⟨rfl, rfl, hf, by rw [hw]⟩
    · rw [if_neg c, if_neg c]
      exact show Res.Lift (WPsqRel s) (.val _) (.val _) from ⟨rfl, rfl, h, rfl⟩
  · rw [if_neg c, if_neg c]
    refine (scaled_psqCell h0 h k).bind fun p q hc => ?_
    rw [hc.2]
    have rest : ∀ pos : List (Fl R), Res.Lift (WPsqRel s)
        (do let n0 ← getAt (psqBump q.2.1 w pos) 0
            let des ← desired n0 (wa + w)
            let r ← psqAdjust des (p.1, psqBump q.2.1 w pos)
            pure (⟨ca + 1, wa + w, r.1, r.2⟩ : WPsqSt (Fl R)))
        (do let n0 ← getAt (psqBump q.2.1 w pos) 0
            let des ← desired n0 (wa + w)
            let r ← psqAdjust des (q.1, psqBump q.2.1 w pos)
            pure (⟨ca + 1, wa + w, r.1, r.2⟩ : WPsqSt (Fl R))) := by
      intro pos
      refine (rf _).bind fun n0 _ e => ?_; subst e
      refine (rf _).bind fun des _ e => ?_; subst e
      exact (scaled_psqAdjust hs h0 _ (u := (p.1, psqBump q.2.1 w pos)) (v := (q.1, psqBump q.2.1 w pos)) ⟨hc.1, rfl⟩).bind
        fun _ _ h => show Res.Lift (WPsqRel s) (.val _) (.val _) from ⟨rfl, rfl, h.1, h.2⟩
    by_cases c : q.2.2 = true
    · simp only [if_pos c]
      exact (rf _).bind fun pos _ e => e ▸ rest pos
    · simp only [if_neg c]
      exact rest pa

/-! ### Histograms -/

theorem scaled_binPositions (hs : R.Exact s) (n : ℕ) {a b a' b' : Fl R} (ha : Scaled s a a') (hb : Scaled s b b') :
    Sc (binPositions n a b) (binPositions n a' b') := by
  unfold binPositions
  generalize List.range (n + 2) = l
  induction l with
  | nil => exact .nil
  | cons i l ih => exact .cons (ha.add hs (hb.self_mul hs _)) ih

theorem scaled_binAdd (h0 : 0 < s) (n : ℕ) {pos pos' : List (Fl R)} (h : Sc pos pos') (bins : List (Fl R)) {x y : Fl R}
    (k : Scaled s x y) (w : Fl R) : binAdd n pos bins x w = binAdd n pos' bins y w := by
  have key : Res.Lift (· = ·) (binAdd n pos bins x w) (binAdd n pos' bins y w) := by
    have rf : ∀ {α : Type} (x : Res α), Res.Lift (· = ·) x x := fun x => Res.Lift.refl (fun _ => rfl) x
    unfold binAdd
    refine (Lift_getAt h 1).bind fun f f' hf => ?_
    by_cases c : x < f
    · rw [if_pos c, if_pos ((Scaled.lt_iff_pos h0 k hf).2 c)]
      exact rf _
    · rw [if_neg c, if_neg (fun d => c ((Scaled.lt_iff_pos h0 k hf).1 d))]
      refine (Lift_getAt h _).bind fun f f' hf => ?_
      by_cases c : f ≤ x
      · rw [if_pos c, if_pos ((hf.le_iff_pos h0 k).2 c)]
        exact rf _
      · rw [if_neg c, if_neg (fun d => c ((hf.le_iff_pos h0 k).1 d)), scaled_upperBound h0 h k]
        exact rf _
  generalize binAdd n pos bins x w = u at *
  generalize binAdd n pos' bins y w = v at *
  cases u <;> cases v <;> first | exact key.elim | rfl | exact congrArg Res.val key

/-- Minimum and maximum so far: the limits of the type before the first sample, multiplied by `s` afterwards. -/
def LimRel (s : K) (lo hi : Fl R) (cnt : ℕ) (mn mn' mx mx' : Fl R) : Prop :=
  (cnt = 0 ∧ mn = hi ∧ mn' = hi ∧ mx = lo ∧ mx' = lo) ∨ (Scaled s mn mn' ∧ Scaled s mx mx')

/-- A sample and its multiple, both within the limits of the type. -/
def InRange (s : K) (lo hi x y : Fl R) : Prop := Scaled s x y ∧ (lo ≤ x ∧ x ≤ hi) ∧ (lo ≤ y ∧ y ≤ hi)

theorem limRel_push (h0 : 0 < s) {lo hi : Fl R} {cnt : ℕ} {mn mn' mx mx' x y : Fl R} (h : LimRel s lo hi cnt mn mn' mx mx')
    (k : InRange s lo hi x y) : Scaled s (minAssign ltb mn x) (minAssign ltb mn' y) ∧
      Scaled s (maxAssign ltb mx x) (maxAssign ltb mx' y) := by
  obtain ⟨k, ⟨kl, kh⟩, kl', kh'⟩ := k
  simp only [minAssign, maxAssign, ltb, decide_eq_true_eq]
  rcases h with ⟨_, rfl, rfl, rfl, rfl⟩ | ⟨h1, h2⟩
  · have e1 : ∀ {a b : Fl R}, a ≤ b → (if a < b then a else b) = a := fun {a b} h => by
      split_ifs with c
      · rfl
      · exact (le_antisymm h (not_lt.1 c)).symm
    have e2 : ∀ {a b : Fl R}, b ≤ a → (if b < a then a else b) = a := fun {a b} h => by
      split_ifs with c
      · rfl
      · exact le_antisymm h (not_lt.1 c)
    rw [e1 kh, e1 kh', e2 kl, e2 kl']
    exact ⟨k, k⟩
  · simp only [Scaled.lt_iff_pos h0 k h1, Scaled.lt_iff_pos h0 h2 k]
    constructor
    · split_ifs
      · exact k
      · exact h1
    · split_ifs
      · exact k
      · exact h2

/-- Two density accumulators. -/
structure DensRel (s : K) (lo hi : Fl R) (a b : DensitySt (Fl R)) : Prop where
  cnt : a.cnt = b.cnt
  lim : LimRel s lo hi a.cnt a.mn b.mn a.mx b.mx
  cacheSize : a.cacheSize = b.cacheSize
  cache : List.Forall₂ (Scaled s) a.cache b.cache
  numBins : a.numBins = b.numBins
  bins : a.bins = b.bins
  pos : List.Forall₂ (Scaled s) a.pos b.pos
  hist : HistRel s a.hist b.hist
  dirty : a.dirty = b.dirty

theorem forall₂_replicate {α β : Type} {r : α → β → Prop} {a : α} {b : β} (h : r a b) (n : ℕ) :
    List.Forall₂ r (List.replicate n a) (List.replicate n b) := by
  induction n with
  | zero => exact .nil
  | succ n ih => exact .cons h ih

theorem densRel_init (lo hi : Fl R) (c n : ℕ) : DensRel s lo hi (densityInit lo hi c n 0) (densityInit lo hi c n 0) :=
  ⟨rfl, .inl ⟨rfl, rfl, rfl, rfl, rfl⟩, rfl, forall₂_replicate Scaled.zero _, rfl, rfl, forall₂_replicate Scaled.zero _,
    forall₂_replicate ⟨Scaled.zero, rfl⟩ _, rfl⟩

theorem Lift_eq_refl {α : Type} (x : Res α) : Res.Lift (· = ·) x x := Res.Lift.refl (fun _ => rfl) x

theorem densRel_push (hs : R.Exact s) (h0 : 0 < s) {lo hi : Fl R} {a b : DensitySt (Fl R)} (h : DensRel s lo hi a b)
    {x y : Fl R} (k : InRange s lo hi x y) : Res.Lift (DensRel s lo hi) (densityPush a x) (densityPush b y) := by
  obtain ⟨cnt, mn, mx, cs, cache, nb, bins, pos, hist, dirty⟩ := a
  obtain ⟨cnt', mn', mx', cs', cache', nb', bins', pos', hist', dirty'⟩ := b
  obtain ⟨e1, hl, e2, hc, e3, e4, hp, hh, e5⟩ := h
  dsimp only at e1 hl e2 hc e3 e4 hp hh e5
  subst e1 e2 e3 e4 e5
  obtain ⟨hmn, hmx⟩ := limRel_push h0 hl k
  unfold densityPush densityStep
  dsimp only
  generalize minAssign ltb mn x = mn at *
  generalize minAssign ltb mn' y = mn' at *
  generalize maxAssign ltb mx x = mx at *
  generalize maxAssign ltb mx' y = mx' at *
  have rest : ∀ l m : List (Fl R), Sc l m → Res.Lift (DensRel s lo hi)
      (if cnt + 1 = cs then do
        let minimum ← fdiv mn 1
        let maximum ← fdiv mx 1
        let binSize ← fdiv (maximum - minimum) (nb : Fl R)
        let bins ← foldRes (fun bins y => binAdd nb (binPositions nb minimum binSize) bins y 1) bins l
        pure (⟨cnt + 1, mn, mx, cs, l, nb, bins, binPositions nb minimum binSize, hist, true⟩ : DensitySt (Fl R))
      else if cs < cnt + 1 then do
        let bins ← binAdd nb pos bins x 1
        pure ⟨cnt + 1, mn, mx, cs, l, nb, bins, pos, hist, true⟩
      else .val ⟨cnt + 1, mn, mx, cs, l, nb, bins, pos, hist, true⟩)
      (if cnt + 1 = cs then do
        let minimum ← fdiv mn' 1
        let maximum ← fdiv mx' 1
        let binSize ← fdiv (maximum - minimum) (nb : Fl R)
        let bins ← foldRes (fun bins y => binAdd nb (binPositions nb minimum binSize) bins y 1) bins m
        pure (⟨cnt + 1, mn', mx', cs, m, nb, bins, binPositions nb minimum binSize, hist', true⟩ : DensitySt (Fl R))
      else if cs < cnt + 1 then do
        let bins ← binAdd nb pos' bins y 1
        pure ⟨cnt + 1, mn', mx', cs, m, nb, bins, pos', hist', true⟩
      else .val ⟨cnt + 1, mn', mx', cs, m, nb, bins, pos', hist', true⟩) := by
    intro l m hlm
    by_cases c : cnt + 1 = cs
    · rw [if_pos c, if_pos c]
      refine (hmn.fdiv_self hs 1).bind fun _ _ a1 => (hmx.fdiv_self hs 1).bind fun _ _ a2 => ?_
      refine ((a2.sub hs a1).fdiv_self hs _).bind fun _ _ a3 => ?_
      have hp := scaled_binPositions hs nb a1 a3
      refine (Lift_foldRes (q := (· = ·)) (fun u _ p p' e hp' => ?_) hlm (rfl : bins = bins)).bind fun _ _ e => ?_
      · subst e
        rw [scaled_binAdd h0 nb hp u hp' 1]
        exact Lift_eq_refl _
      · exact show Res.Lift (DensRel s lo hi) (.val _) (.val _) from ⟨rfl, .inr ⟨hmn, hmx⟩, rfl, hlm, rfl, e, hp, hh, rfl⟩
    · rw [if_neg c, if_neg c]
      by_cases c : cs < cnt + 1
      · rw [if_pos c, if_pos c, scaled_binAdd h0 nb hp bins k.1 1]
        exact (Lift_eq_refl _).bind fun _ _ e => show Res.Lift (DensRel s lo hi) (.val _) (.val _) from
          ⟨rfl, .inr ⟨hmn, hmx⟩, rfl, hlm, rfl, e, hp, hh, rfl⟩
      · rw [if_neg c, if_neg c]
        exact ⟨rfl, .inr ⟨hmn, hmx⟩, rfl, hlm, rfl, rfl, hp, hh, rfl⟩
  by_cases c : cnt + 1 ≤ cs
  · simp only [if_pos c]
    exact (Lift_setAt hc _ k.1).bind fun l m h => rest l m h
  · simp only [if_neg c]
    exact rest _ _ hc

theorem densRel_query {lo hi : Fl R} {a b : DensitySt (Fl R)} (h : DensRel s lo hi a b) :
    Res.Lift (fun u v : DensitySt (Fl R) × List (Fl R × Res (Fl R)) => DensRel s lo hi u.1 v.1 ∧ HistRel s u.2 v.2)
      (densityQuery a) (densityQuery b) := by
  unfold densityQuery
  rw [← h.dirty, ← h.numBins, ← h.cnt, ← h.bins]
  by_cases c : a.dirty = true
  · rw [if_pos c, if_pos c]
    refine Res.Lift.bind (r := HistRel s) ?_ fun l m hh => show Res.Lift _ (.val _) (.val _) from
      ⟨⟨rfl, h.lim, h.cacheSize, h.cache, rfl, rfl, h.pos, hh, rfl⟩, hh⟩
    refine Lift_mapRes (p := (· = ·)) (fun i _ e => ?_) (forall₂_eq_refl _)
    subst e
    exact (Lift_getAt h.pos i).bind fun _ _ h => (Lift_eq_refl _).bind fun _ _ e =>
      show Res.Lift _ (.val _) (.val _) from ⟨h, by rw [e]⟩
  · rw [if_neg c, if_neg c]
    exact ⟨h, h.hist⟩

/-- Two weighted density accumulators. -/
structure WDensRel (s : K) (lo hi : Fl R) (a b : WDensitySt (Fl R)) : Prop where
  cnt : a.cnt = b.cnt
  wsum : a.wsum = b.wsum
  lim : LimRel s lo hi a.cnt a.mn b.mn a.mx b.mx
  cacheSize : a.cacheSize = b.cacheSize
  cache : List.Forall₂ (PairRel s) a.cache b.cache
  numBins : a.numBins = b.numBins
  bins : a.bins = b.bins
  pos : List.Forall₂ (Scaled s) a.pos b.pos
  hist : HistRel s a.hist b.hist
  dirty : a.dirty = b.dirty

theorem wdensRel_init (lo hi : Fl R) (c n : ℕ) : WDensRel s lo hi (wdensityInit lo hi c n 0) (wdensityInit lo hi c n 0) :=
  ⟨rfl, rfl, .inl ⟨rfl, rfl, rfl, rfl, rfl⟩, rfl, forall₂_replicate ⟨Scaled.zero, rfl⟩ _, rfl, rfl, forall₂_replicate Scaled.zero _,
    forall₂_replicate ⟨Scaled.zero, rfl⟩ _, rfl⟩

theorem wdensRel_push (hs : R.Exact s) (h0 : 0 < s) {lo hi : Fl R} {a b : WDensitySt (Fl R)} (h : WDensRel s lo hi a b)
    {x y : Fl R × Fl R} (k : InRange s lo hi x.1 y.1 ∧ x.2 = y.2) : Res.Lift (WDensRel s lo hi) (wdensityPush a x) (wdensityPush b y) := by
  obtain ⟨cnt, wsum, mn, mx, cs, cache, nb, bins, pos, hist, dirty⟩ := a
  obtain ⟨cnt', wsum', mn', mx', cs', cache', nb', bins', pos', hist', dirty'⟩ := b
  obtain ⟨x, wt⟩ := x
  obtain ⟨y, wt'⟩ := y
  obtain ⟨k, e7⟩ := k
  obtain ⟨e1, e6, hl, e2, hc, e3, e4, hp, hh, e5⟩ := h
  dsimp only at e7 k e6 e1 hl e2 hc e3 e4 hp hh e5
  subst e1 e2 e3 e4 e5 e6 e7
  obtain ⟨hmn, hmx⟩ := limRel_push h0 hl k
  unfold wdensityPush wdensityStep
  dsimp only
  generalize minAssign ltb mn x = mn at *
  generalize minAssign ltb mn' y = mn' at *
  generalize maxAssign ltb mx x = mx at *
  generalize maxAssign ltb mx' y = mx' at *
  have rest : ∀ l m : List (Fl R × Fl R), List.Forall₂ (PairRel s) l m → Res.Lift (WDensRel s lo hi)
      (if cnt + 1 = cs then do
        let minimum ← fdiv mn 1
        let maximum ← fdiv mx 1
        let binSize ← fdiv (maximum - minimum) (nb : Fl R)
        let bins ← foldRes (fun bins q => binAdd nb (binPositions nb minimum binSize) bins q.1 q.2) bins l
        pure (⟨cnt + 1, sumStep wsum wt, mn, mx, cs, l, nb, bins, binPositions nb minimum binSize, hist, true⟩ : WDensitySt (Fl R))
      else if cs < cnt + 1 then do
        let bins ← binAdd nb pos bins x wt
        pure ⟨cnt + 1, sumStep wsum wt, mn, mx, cs, l, nb, bins, pos, hist, true⟩
      else .val ⟨cnt + 1, sumStep wsum wt, mn, mx, cs, l, nb, bins, pos, hist, true⟩)
      (if cnt + 1 = cs then do
        let minimum ← fdiv mn' 1
        let maximum ← fdiv mx' 1
        let binSize ← fdiv (maximum - minimum) (nb : Fl R)
        let bins ← foldRes (fun bins q => binAdd nb (binPositions nb minimum binSize) bins q.1 q.2) bins m
        pure (⟨cnt + 1, sumStep wsum wt, mn', mx', cs, m, nb, bins, binPositions nb minimum binSize, hist', true⟩ : WDensitySt (Fl R))
      else if cs < cnt + 1 then do
        let bins ← binAdd nb pos' bins y wt
        pure ⟨cnt + 1, sumStep wsum wt, mn', mx', cs, m, nb, bins, pos', hist', true⟩
      else .val ⟨cnt + 1, sumStep wsum wt, mn', mx', cs, m, nb, bins, pos', hist', true⟩) := by
    intro l m hlm
    by_cases c : cnt + 1 = cs
    · rw [if_pos c, if_pos c]
      refine (hmn.fdiv_self hs 1).bind fun _ _ a1 => (hmx.fdiv_self hs 1).bind fun _ _ a2 => ?_
      refine ((a2.sub hs a1).fdiv_self hs _).bind fun _ _ a3 => ?_
      have hp := scaled_binPositions hs nb a1 a3
      refine (Lift_foldRes (q := (· = ·)) (fun u _ p p' e hp' => ?_) hlm (rfl : bins = bins)).bind fun _ _ e => ?_
      · subst e
        rw [scaled_binAdd h0 nb hp u hp'.1 p.2, hp'.2]
        exact Lift_eq_refl _
      · exact show Res.Lift (WDensRel s lo hi) (.val _) (.val _) from ⟨rfl, rfl, .inr ⟨hmn, hmx⟩, rfl, hlm, rfl, e, hp, hh, rfl⟩
    · rw [if_neg c, if_neg c]
      by_cases c : cs < cnt + 1
      · rw [if_pos c, if_pos c, scaled_binAdd h0 nb hp bins k.1 wt]
        exact (Lift_eq_refl _).bind fun _ _ e => show Res.Lift (WDensRel s lo hi) (.val _) (.val _) from
          ⟨rfl, rfl, .inr ⟨hmn, hmx⟩, rfl, hlm, rfl, e, hp, hh, rfl⟩
      · rw [if_neg c, if_neg c]
        exact ⟨rfl, rfl, .inr ⟨hmn, hmx⟩, rfl, hlm, rfl, rfl, hp, hh, rfl⟩
  by_cases c : cnt + 1 ≤ cs
  · simp only [if_pos c]
    exact (Lift_setAt (r := PairRel s) hc _ (a := (x, wt)) (b := (y, wt)) ⟨k.1, rfl⟩).bind fun l m h => rest l m h
  · simp only [if_neg c]
    exact rest _ _ hc

theorem wdensRel_query {lo hi : Fl R} {a b : WDensitySt (Fl R)} (h : WDensRel s lo hi a b) :
    Res.Lift (fun u v : WDensitySt (Fl R) × List (Fl R × Res (Fl R)) => WDensRel s lo hi u.1 v.1 ∧ HistRel s u.2 v.2)
      (wdensityQuery a) (wdensityQuery b) := by
  unfold wdensityQuery
  rw [← h.dirty, ← h.numBins, ← h.wsum, ← h.bins]
  by_cases c : a.dirty = true
  · rw [if_pos c, if_pos c]
    refine Res.Lift.bind (r := HistRel s) ?_ fun l m hh => show Res.Lift _ (.val _) (.val _) from
      ⟨⟨h.cnt, rfl, h.lim, h.cacheSize, h.cache, rfl, rfl, h.pos, hh, rfl⟩, hh⟩
    refine Lift_mapRes (p := (· = ·)) (fun i _ e => ?_) (forall₂_eq_refl _)
    subst e
    exact (Lift_getAt h.pos i).bind fun _ _ h => (Lift_eq_refl _).bind fun _ _ e =>
      show Res.Lift _ (.val _) (.val _) from ⟨h, by rw [e]⟩
  · rw [if_neg c, if_neg c]
    exact ⟨h, h.hist⟩

/-! ### Medians from histograms -/

theorem scaled_densityMedianLoop (cnt sum : Fl R) (i : ℕ) {l m : List (Fl R × Res (Fl R))} (h : HistRel s l m) :
    densityMedianLoop cnt sum i l = densityMedianLoop cnt sum i m := by
  induction h generalizing sum i with
  | nil => rfl
  | cons a _ ih =>
    unfold densityMedianLoop
    rw [a.2]
    simp only [ih]

theorem scaled_densityMedianBody (hs : R.Exact s) (cnt sum : Fl R) {l m : List (Fl R × Res (Fl R))} (h : HistRel s l m) :
    Res.Lift (fun u v : Fl R × Fl R => u.1 = v.1 ∧ Scaled s u.2 v.2) (densityMedianBody cnt sum l) (densityMedianBody cnt sum m) := by
  unfold densityMedianBody
  rw [scaled_densityMedianLoop cnt sum 0 h]
  refine (Lift_eq_refl _).bind fun r _ e => ?_; subst e
  obtain ⟨r, i⟩ := r
  cases i with
  | zero => trivial
  | succ i =>
    refine (Lift_getAt h i).bind fun it it' hi => ?_
    rw [← hi.2]
    refine (Lift_eq_refl _).bind fun f _ e => ?_; subst e
    refine (Lift_eq_refl _).bind fun o _ e => ?_; subst e
    exact (Lift_getAt h _).bind fun _ _ hn => show Res.Lift _ (.val _) (.val _) from
      ⟨rfl, (hi.1.mul_self hs _).add hs (hn.1.mul_self hs _)⟩

theorem scaled_cumulMedianLoop (i : ℕ) {l m : List (Fl R × Res (Fl R))} (h : HistRel s l m) :
    cumulMedianLoop i l = cumulMedianLoop i m := by
  induction h generalizing i with
  | nil => rfl
  | @cons a b _ _ h _ ih =>
    unfold cumulMedianLoop
    rw [h.2]
    cases b.2 <;> simp only [ih]

theorem scaled_cumulMedianBody (hs : R.Exact s) {l m : List (Fl R × Res (Fl R))} (h : HistRel s l m) :
    Res.Lift (Scaled s) (cumulMedianBody l) (cumulMedianBody m) := by
  unfold cumulMedianBody
  rw [scaled_cumulMedianLoop 0 h]
  refine (Lift_eq_refl _).bind fun i _ e => ?_; subst e
  refine (Lift_getAt h i).bind fun it it' hi => ?_
  cases i with
  | zero => trivial
  | succ j =>
    refine (Lift_getAt h j).bind fun pr pr' hp => (Lift_getAt h _).bind fun nx nx' hn => ?_
    rw [← hi.2, ← hp.2]
    refine (Lift_eq_refl _).bind fun f _ e => ?_; subst e
    refine (Lift_eq_refl _).bind fun g _ e => ?_; subst e
    refine (Lift_eq_refl _).bind fun o _ e => ?_; subst e
    exact show Res.Lift _ (.val _) (.val _) from (hi.1.mul_self hs _).add hs (hn.1.mul_self hs _)

/-! ### Whole sets -/

theorem scaled_psqQuantileSet (hs : R.Exact s) (h0 : 0 < s) (p : Fl R) {h g : List (Op (Fl R) Unit)}
    (hh : List.Forall₂ (Op.Rel (Scaled s)) h g) : Res.Lift (Scaled s) ((psqQuantileSet p).answer h ()) ((psqQuantileSet p).answer g ()) :=
  RMachine.answer_rel (M := psqQuantileSet p) (N := psqQuantileSet p) (a := Scaled s) (r := PsqRel s) (psqRel_init _ _) (fun _ _ _ _ h k => psqRel_push hs h0 _ h k)
    (fun _ _ _ h => (Lift_getAt h.heights 2).bind fun _ _ k => show Res.Lift (fun u v : _ × _ => PsqRel s u.1 v.1 ∧ _) (.val _) (.val _) from ⟨h, k⟩) hh ()

theorem scaled_epsqSet (hs : R.Exact s) (h0 : 0 < s) (ps : List (Fl R)) {h g : List (Op (Fl R) Unit)}
    (hh : List.Forall₂ (Op.Rel (Scaled s)) h g) : Res.Lift Sc ((epsqSet ps).answer h ()) ((epsqSet ps).answer g ()) :=
  RMachine.answer_rel (M := epsqSet ps) (N := epsqSet ps) (a := Sc) (r := PsqRel s) (psqRel_init _ _) (fun _ _ _ _ h k => psqRel_push hs h0 _ h k)
    (fun _ _ _ h => (scaled_epsqResult h.heights _).bind fun _ _ k => show Res.Lift (fun u v : _ × _ => PsqRel s u.1 v.1 ∧ _) (.val _) (.val _) from ⟨h, k⟩) hh ()

theorem scaled_epsqQuantileSet (hs : R.Exact s) (h0 : 0 < s) (kind : Interp) (nan : Bool) (ps : List (Fl R))
    {h g : List (Op (Fl R) (Fl R))} (hh : List.Forall₂ (Op.Rel (Scaled s)) h g) (p : Fl R) :
    Res.Lift (Res.Lift (Scaled s)) ((epsqQuantileSet kind nan ps).answer h p) ((epsqQuantileSet kind nan ps).answer g p) :=
  RMachine.answer_rel (r := PsqRel s) (psqRel_init _ _) (fun _ _ _ _ h k => psqRel_push hs h0 _ h k)
    (fun _ _ _ h => (scaled_epsqResult h.heights _).bind fun _ _ k => scaled_asResult h (scaled_epsqQuantile hs _ _ _ k _)) hh p

/-- Two accumulators of the cumulative distribution. -/
structure CumulRel (s : K) (a b : PsqCumulSt (Fl R)) : Prop where
  m : PsqRel s a.m b.m
  hist : HistRel s a.hist b.hist
  dirty : a.dirty = b.dirty

theorem cumulRel_init (b : ℕ) : CumulRel s (psqCumulSet (K := Fl R) b).init (psqCumulSet b).init :=
  ⟨psqRel_init _ _, forall₂_replicate ⟨Scaled.zero, rfl⟩ _, rfl⟩

theorem cumulRel_push (hs : R.Exact s) (h0 : 0 < s) (n : ℕ) {a b : PsqCumulSt (Fl R)} (h : CumulRel s a b) {x y : Fl R}
    (k : Scaled s x y) : Res.Lift (CumulRel s) ((psqCumulSet n).push a x) ((psqCumulSet n).push b y) :=
  (psqRel_push hs h0 _ h.m k).bind fun _ _ hm => show Res.Lift (CumulRel s) (.val _) (.val _) from ⟨hm, h.hist, rfl⟩

theorem cumulRel_query (n : ℕ) {a b : PsqCumulSt (Fl R)} (h : CumulRel s a b) :
    Res.Lift (fun u v : PsqCumulSt (Fl R) × List (Fl R × Res (Fl R)) => CumulRel s u.1 v.1 ∧ HistRel s u.2 v.2)
      ((psqCumulSet n).query a ()) ((psqCumulSet n).query b ()) := by
  unfold psqCumulSet
  dsimp only
  rw [← h.dirty, ← h.m.pos, ← h.m.cnt]
  by_cases c : a.dirty = true
  · rw [if_pos c, if_pos c]
    exact (scaled_psqHist h.m.heights _ _).bind fun _ _ hh => show Res.Lift _ (.val _) (.val _) from ⟨⟨h.m, hh, rfl⟩, hh⟩
  · rw [if_neg c, if_neg c]
    exact ⟨h, h.hist⟩

theorem scaled_psqCumulSet (hs : R.Exact s) (h0 : 0 < s) (b : ℕ) {h g : List (Op (Fl R) Unit)}
    (hh : List.Forall₂ (Op.Rel (Scaled s)) h g) : Res.Lift (HistRel s) ((psqCumulSet b).answer h ()) ((psqCumulSet b).answer g ()) :=
  RMachine.answer_rel (r := CumulRel s) (cumulRel_init b) (fun _ _ _ _ h k => cumulRel_push hs h0 b h k)
    (fun _ _ _ h => cumulRel_query b h) hh ()

theorem scaled_cmedianSet (hs : R.Exact s) (h0 : 0 < s) (b : ℕ) {h g : List (Op (Fl R) Unit)}
    (hh : List.Forall₂ (Op.Rel (Scaled s)) h g) : Res.Lift (Scaled s) ((cmedianSet b).answer h ()) ((cmedianSet b).answer g ()) := by
  refine RMachine.answer_rel (M := cmedianSet b) (N := cmedianSet b)
    (r := fun a b : CMedianSt (Fl R) => CumulRel s a.dist b.dist ∧ a.dirty = b.dirty ∧ Scaled s a.median b.median)
    ⟨cumulRel_init b, rfl, Scaled.zero⟩ ?_ ?_ hh ()
  · intro _ _ _ _ h k
    exact (cumulRel_push hs h0 b h.1 k).bind fun _ _ hd => show Res.Lift _ (.val _) (.val _) from ⟨hd, rfl, h.2.2⟩
  · intro u v _ h
    unfold cmedianSet
    dsimp only
    rw [← h.2.1]
    by_cases c : u.dirty = true
    · rw [if_pos c, if_pos c]
      exact (cumulRel_query b h.1).bind fun _ _ hr => (scaled_cumulMedianBody hs hr.2).bind fun _ _ hm =>
        show Res.Lift _ (.val _) (.val _) from ⟨⟨hr.1, rfl, hm⟩, hm⟩
    · rw [if_neg c, if_neg c]
      exact ⟨h, h.2.2⟩

theorem scaled_densitySet (hs : R.Exact s) (h0 : 0 < s) (lo hi : Fl R) (c n : ℕ) {h g : List (Op (Fl R) Unit)}
    (hh : List.Forall₂ (Op.Rel (InRange s lo hi)) h g) :
    Res.Lift (HistRel s) ((densitySet lo hi c n 0).answer h ()) ((densitySet lo hi c n 0).answer g ()) :=
  RMachine.answer_rel (r := DensRel s lo hi) (densRel_init lo hi c n) (fun _ _ _ _ h k => densRel_push hs h0 h k)
    (fun _ _ _ h => densRel_query h) hh ()

theorem scaled_dmedianSet (hs : R.Exact s) (h0 : 0 < s) (lo hi : Fl R) (c n : ℕ) {h g : List (Op (Fl R) Unit)}
    (hh : List.Forall₂ (Op.Rel (InRange s lo hi)) h g) :
    Res.Lift (Scaled s) ((dmedianSet lo hi c n 0).answer h ()) ((dmedianSet lo hi c n 0).answer g ()) := by
  refine RMachine.answer_rel (M := dmedianSet lo hi c n 0) (N := dmedianSet lo hi c n 0)
    (r := fun a b : DMedianSt (Fl R) => DensRel s lo hi a.dens b.dens ∧ a.sum = b.sum ∧ a.dirty = b.dirty ∧
      Scaled s a.median b.median) ⟨densRel_init lo hi c n, rfl, rfl, Scaled.zero⟩ ?_ ?_ hh ()
  · intro _ _ _ _ h k
    exact (densRel_push hs h0 h.1 k).bind fun _ _ hd => show Res.Lift _ (.val _) (.val _) from ⟨hd, h.2.1, rfl, h.2.2.2⟩
  · intro u v _ h
    unfold dmedianSet
    dsimp only
    rw [← h.2.2.1, ← h.2.1, ← h.1.cnt]
    by_cases c : u.dirty = true
    · rw [if_pos c, if_pos c]
      exact (densRel_query h.1).bind fun _ _ hr => (scaled_densityMedianBody hs _ _ hr.2).bind fun _ _ hm =>
        show Res.Lift _ (.val _) (.val _) from ⟨⟨hr.1, hm.1, rfl, hm.2⟩, hm.2⟩
    · rw [if_neg c, if_neg c]
      exact ⟨h, h.2.2.2⟩

/-! With weights -/

theorem scaled_wpsqQuantileSet (hs : R.Exact s) (h0 : 0 < s) (p : Fl R) {h g : List (Op (Fl R × Fl R) Unit)}
    (hh : List.Forall₂ (Op.Rel (PairRel s)) h g) : Res.Lift (Scaled s) ((wpsqQuantileSet p).answer h ()) ((wpsqQuantileSet p).answer g ()) :=
  RMachine.answer_rel (M := wpsqQuantileSet p) (N := wpsqQuantileSet p) (a := Scaled s) (r := WPsqRel s) (wpsqRel_init _) (fun _ _ _ _ h k => wpsqRel_push hs h0 _ _ (fun n0 W => .val (wpsqQuantileDes p n0 W)) h k)
    (fun _ _ _ h => (Lift_getAt h.heights 2).bind fun _ _ k => show Res.Lift (fun u v : _ × _ => WPsqRel s u.1 v.1 ∧ _) (.val _) (.val _) from ⟨h, k⟩) hh ()

theorem scaled_wepsqSet (hs : R.Exact s) (h0 : 0 < s) (ps : List (Fl R)) {h g : List (Op (Fl R × Fl R) Unit)}
    (hh : List.Forall₂ (Op.Rel (PairRel s)) h g) : Res.Lift Sc ((wepsqSet ps).answer h ()) ((wepsqSet ps).answer g ()) :=
  RMachine.answer_rel (M := wepsqSet ps) (N := wepsqSet ps) (a := Sc) (r := WPsqRel s) (wpsqRel_init _) (fun _ _ _ _ h k => wpsqRel_push hs h0 _ _ (wepsqDes ps) h k)
    (fun _ _ _ h => (scaled_epsqResult h.heights _).bind fun _ _ k => show Res.Lift (fun u v : _ × _ => WPsqRel s u.1 v.1 ∧ _) (.val _) (.val _) from ⟨h, k⟩) hh ()

theorem scaled_wepsqQuantileSet (hs : R.Exact s) (h0 : 0 < s) (kind : Interp) (nan : Bool) (ps : List (Fl R))
    {h g : List (Op (Fl R × Fl R) (Fl R))} (hh : List.Forall₂ (Op.Rel (PairRel s)) h g) (p : Fl R) :
    Res.Lift (Res.Lift (Scaled s)) ((wepsqQuantileSet kind nan ps).answer h p) ((wepsqQuantileSet kind nan ps).answer g p) :=
  RMachine.answer_rel (r := WPsqRel s) (wpsqRel_init _) (fun _ _ _ _ h k => wpsqRel_push hs h0 _ _ _ h k)
    (fun _ _ _ h => (scaled_epsqResult h.heights _).bind fun _ _ k => scaled_asResult h (scaled_epsqQuantile hs _ _ _ k _)) hh p

theorem scaled_wpsqCumulSet (hs : R.Exact s) (h0 : 0 < s) (b : ℕ) {h g : List (Op (Fl R × Fl R) Unit)}
    (hh : List.Forall₂ (Op.Rel (PairRel s)) h g) :
    Res.Lift (HistRel s) ((wpsqCumulSet b).answer h ()) ((wpsqCumulSet b).answer g ()) := by
  refine RMachine.answer_rel (M := wpsqCumulSet b) (N := wpsqCumulSet b)
    (r := fun a b : WPsqCumulSt (Fl R) => WPsqRel s a.m b.m ∧ HistRel s a.hist b.hist ∧ a.dirty = b.dirty)
    ⟨wpsqRel_init _, forall₂_replicate ⟨Scaled.zero, rfl⟩ _, rfl⟩ ?_ ?_ hh ()
  · intro _ _ _ _ h k
    exact (wpsqRel_push hs h0 _ _ _ h.1 k).bind fun _ _ hd => show Res.Lift _ (.val _) (.val _) from ⟨hd, h.2.1, rfl⟩
  · intro u v _ h
    unfold wpsqCumulSet
    dsimp only
    rw [← h.2.2, ← h.1.pos, ← h.1.wsum]
    by_cases c : u.dirty = true
    · rw [if_pos c, if_pos c]
      exact (scaled_psqHist h.1.heights _ _).bind fun _ _ hh => show Res.Lift _ (.val _) (.val _) from ⟨⟨h.1, hh, rfl⟩, hh⟩
    · rw [if_neg c, if_neg c]
      exact ⟨h, h.2.1⟩

theorem scaled_wdensitySet (hs : R.Exact s) (h0 : 0 < s) (lo hi : Fl R) (c n : ℕ) {h g : List (Op (Fl R × Fl R) Unit)}
    (hh : List.Forall₂ (Op.Rel fun p q => InRange s lo hi p.1 q.1 ∧ p.2 = q.2) h g) :
    Res.Lift (HistRel s) ((wdensitySet lo hi c n 0).answer h ()) ((wdensitySet lo hi c n 0).answer g ()) :=
  RMachine.answer_rel (r := WDensRel s lo hi) (wdensRel_init lo hi c n) (fun _ _ _ _ h k => wdensRel_push hs h0 h k)
    (fun _ _ _ h => wdensRel_query h) hh ()

end

end Acc
