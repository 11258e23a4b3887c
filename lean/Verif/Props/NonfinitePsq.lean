import Verif.Props.RoundWPsq
import Verif.Props.Nonfinite

/-!
# C88: NaN and infinite samples in the P-square estimators

The estimators of `Model/PSquare.lean` run on numbers with infinities and NaN (`Ext F`).
-/

set_option linter.unusedSectionVars false

namespace Acc

open Ext

/-! ## Number types embedded in another -/

namespace Res

theorem bind_congr {α β : Type} {r : Res α} {f g : α → Res β} (h : ∀ a, f a = g a) : (r >>= f) = (r >>= g) := by
  rw [funext h]

theorem map_bind' {α β γ : Type} (r : Res α) (f : α → β) (g : β → Res γ) : (f <$> r >>= g) = (r >>= fun a => g (f a)) := by
  cases r <;> rfl

theorem bind_map' {α β γ : Type} (r : Res α) (f : α → Res β) (g : β → γ) :
    g <$> (r >>= f) = (r >>= fun a => g <$> f a) := by
  cases r <;> rfl

end Res

section
variable {A B : Type} [Arith A] [DecidableEq A] [LE A] [LT A] [DecidableLE A] [DecidableLT A]
  [Arith B] [DecidableEq B] [LE B] [LT B] [DecidableLE B] [DecidableLT B]

/-- The operations and comparisons of `A` are those of `B`. -/
structure Emb (e : A → B) : Prop where
  inj : ∀ {a b}, e a = e b ↔ a = b
  zero : e 0 = 0
  one : e 1 = 1
  add : ∀ a b, e (a + b) = e a + e b
  sub : ∀ a b, e (a - b) = e a - e b
  mul : ∀ a b, e (a * b) = e a * e b
  neg : ∀ a, e (-a) = -e a
  div : ∀ a b, b ≠ 0 → e (a / b) = e a / e b
  lt : ∀ {a b}, e a < e b ↔ a < b
  le : ∀ {a b}, e a ≤ e b ↔ a ≤ b

theorem getAt_emb {α β : Type} (f : α → β) (l : List α) (i : ℕ) : getAt (l.map f) i = f <$> getAt l i := by
  unfold getAt
  rw [List.getElem?_map]
  cases l[i]? <;> rfl

theorem setAt_emb {α β : Type} (f : α → β) (l : List α) (i : ℕ) (a : α) :
    setAt (l.map f) i (f a) = List.map f <$> setAt l i a := by
  unfold setAt
  rw [List.length_map]
  split
  · rw [Res.map_val, List.map_set]
  · rfl

variable {e : A → B}

theorem Emb.fdiv (h : Emb e) (a b : A) : fdiv (e a) (e b) = e <$> Acc.fdiv a b := by
  unfold Acc.fdiv
  by_cases c : b = 0
  · rw [if_pos c, if_pos (by rw [c, h.zero])]; rfl
  · rw [if_neg c, if_neg (by rw [← h.zero, h.inj]; exact c), Res.map_val, h.div a b c]

theorem psqAdjust1_emb (h : Emb e) (des : List A) (s : List A × List A) (i : ℕ) :
    psqAdjust1 (des.map e) (s.1.map e, s.2.map e) i
      = (fun r => (r.1.map e, r.2.map e)) <$> psqAdjust1 des s i := by
  unfold psqAdjust1
  simp only [getAt_emb, Res.map_bind', Res.bind_map']
  refine Res.bind_congr fun di => Res.bind_congr fun ni => Res.bind_congr fun np => Res.bind_congr fun nm =>
    Res.bind_congr fun qi => Res.bind_congr fun qp => Res.bind_congr fun qm => ?_
  have c : ((1 ≤ e di - e ni ∧ 1 < e np - e ni) ∨ (e di - e ni ≤ -1 ∧ e nm - e ni < -1)) ↔
      ((1 ≤ di - ni ∧ 1 < np - ni) ∨ (di - ni ≤ -1 ∧ nm - ni < -1)) := by
    simp only [← h.sub, ← h.one, ← h.neg, h.le, h.lt]
  by_cases c' : (1 ≤ di - ni ∧ 1 < np - ni) ∨ (di - ni ≤ -1 ∧ nm - ni < -1)
  · rw [if_pos c', if_pos (c.2 c')]
    have hs : (if 0 < e di - e ni then (1 : B) else -1) = e (if 0 < di - ni then 1 else -1) := by
      simp only [← h.sub, ← h.zero, h.lt]
      split
      · exact h.one.symm
      · rw [h.neg, h.one]
    simp only [hs]
    generalize (if 0 < di - ni then (1 : A) else -1) = sgn
    have hq : ((do
          let c ← fdiv (e sgn) (e np - e ni - (e nm - e ni))
          let a ← fdiv (e qp - e qi) (e np - e ni)
          let b ← fdiv (e qm - e qi) (e nm - e ni)
          pure (e qi + c * ((e sgn - (e nm - e ni)) * a + (e np - e ni - e sgn) * b))) : Res B) =
        e <$> ((do
          let c ← fdiv sgn (np - ni - (nm - ni))
          let a ← fdiv (qp - qi) (np - ni)
          let b ← fdiv (qm - qi) (nm - ni)
          pure (qi + c * ((sgn - (nm - ni)) * a + (np - ni - sgn) * b))) : Res A) := by
      simp only [← h.sub, h.fdiv, Res.map_bind', Res.bind_map', Res.pure_eq, Res.map_val, h.add, h.mul]
    have hl : (if 0 < e di - e ni then (do
            let a ← fdiv (e qp - e qi) (e np - e ni)
            pure (e qi + a)) else (do
            let b ← fdiv (e qm - e qi) (e nm - e ni)
            pure (e qi - b)) : Res B) =
        e <$> (if 0 < di - ni then (do
            let a ← fdiv (qp - qi) (np - ni)
            pure (qi + a)) else (do
            let b ← fdiv (qm - qi) (nm - ni)
            pure (qi - b)) : Res A) := by
      by_cases d : 0 < di - ni
      · rw [if_pos d, if_pos (by rwa [← h.sub, ← h.zero, h.lt])]
        simp only [← h.sub, h.fdiv, Res.map_bind', Res.bind_map', Res.pure_eq, Res.map_val, h.add]
      · rw [if_neg d, if_neg (by rwa [← h.sub, ← h.zero, h.lt])]
        simp only [← h.sub, h.fdiv, Res.map_bind', Res.bind_map', Res.pure_eq, Res.map_val]
    simp only [hq, hl]
    generalize (if 0 < di - ni then (do
            let a ← fdiv (qp - qi) (np - ni)
            pure (qi + a)) else (do
            let b ← fdiv (qm - qi) (nm - ni)
            pure (qi - b)) : Res A) = lin
    generalize ((do
          let c ← fdiv sgn (np - ni - (nm - ni))
          let a ← fdiv (qp - qi) (np - ni)
          let b ← fdiv (qm - qi) (nm - ni)
          pure (qi + c * ((sgn - (nm - ni)) * a + (np - ni - sgn) * b))) : Res A) = v
    have hf : ∀ q : A, (do
          let hs ← setAt (s.1.map e) i (e q)
          let ns ← setAt (s.2.map e) i (e ni + e sgn)
          pure (hs, ns) : Res (List B × List B)) = (fun r => (r.1.map e, r.2.map e)) <$> (do
          let hs ← setAt s.1 i q
          let ns ← setAt s.2 i (ni + sgn)
          pure (hs, ns) : Res (List A × List A)) := by
      intro q
      rw [setAt_emb, Res.map_bind', Res.bind_map']
      refine Res.bind_congr fun hs' => ?_
      rw [← h.add, setAt_emb, Res.map_bind', Res.bind_map']
      rfl
    cases v with
    | val a =>
      simp only [Res.map_val, h.lt]
      split
      · exact hf a
      · rw [Res.map_bind', Res.bind_map']
        exact Res.bind_congr hf
    | _ =>
      show ((e <$> lin) >>= _) = _ <$> (lin >>= _)
      rw [Res.map_bind', Res.bind_map']
      exact Res.bind_congr hf
  · rw [if_neg c', if_neg (fun x => c' (c.1 x))]
    rfl

theorem psqAdjust_emb (h : Emb e) (des : List A) (s : List A × List A) :
    psqAdjust (des.map e) (s.1.map e, s.2.map e) = (fun r => (r.1.map e, r.2.map e)) <$> psqAdjust des s := by
  unfold psqAdjust
  rw [List.length_map]
  generalize List.range' 1 (s.1.length - 2) = l
  induction l generalizing s with
  | nil => rfl
  | cons i l ih =>
    unfold foldRes
    rw [psqAdjust1_emb h, Res.map_bind', Res.bind_map']
    exact Res.bind_congr fun s' => ih s'

theorem upperBound_emb (h : Emb e) (l : List A) (x : A) : upperBound (l.map e) (e x) = upperBound l x := by
  unfold upperBound
  simp only [List.findIdx_map, ← List.map_drop, List.all_map, Function.comp_def, h.lt]

theorem psqCell_emb (h : Emb e) (l : List A) (x : A) :
    psqCell (l.map e) (e x) = (fun r => (r.1.map e, r.2)) <$> psqCell l x := by
  unfold psqCell
  rw [getAt_emb, Res.map_bind', Res.bind_map']
  refine Res.bind_congr fun h0 => ?_
  rw [List.length_map, getAt_emb, Res.map_bind']
  simp only [h.lt]
  split
  · rw [setAt_emb, Res.map_bind', Res.bind_map']; rfl
  · rw [Res.bind_map']
    refine Res.bind_congr fun hl => ?_
    simp only [h.le]
    split
    · rw [setAt_emb, Res.map_bind', Res.bind_map']; rfl
    · rw [upperBound_emb h, Res.bind_map']; rfl

theorem psqBump_emb (h : Emb e) (k : ℕ) (w : A) (pos : List A) :
    psqBump k (e w) (pos.map e) = (psqBump k w pos).map e := by
  unfold psqBump
  apply List.ext_getElem
  · simp
  · intro i h1 h2
    simp only [List.getElem_mapIdx, List.getElem_map]
    split
    · exact (h.add _ _).symm
    · rfl

theorem minIdx_emb (h : Emb e) (l : List (A × A)) : minIdx (l.map (Prod.map e e)) = minIdx l := by
  unfold minIdx
  simp only [List.findIdx_map, List.all_map, Function.comp_def, Prod.map_fst, h.le]

theorem selSort_emb (h : Emb e) (n : ℕ) (l : List (A × A)) :
    selSort n (l.map (Prod.map e e)) = (selSort n l).map (Prod.map e e) := by
  induction n generalizing l with
  | zero => simp [selSort]
  | succ n ih =>
    cases l with
    | nil => simp [selSort]
    | cons a t =>
      have hm := minIdx_emb h (a :: t)
      rw [List.map_cons] at hm ⊢
      unfold selSort
      rw [hm]
      cases minIdx (a :: t) with
      | zero => simp only [List.map_cons, ih]
      | succ d =>
        simp only [List.getElem?_map]
        cases t[d]? with
        | none => simp only [Option.map_none, List.map_cons, ih]
        | some b => simp only [Option.map_some, List.map_cons, ← ih, List.map_set]

theorem prefixSums_emb (h : Emb e) (acc : A) (l : List A) : prefixSums (e acc) (l.map e) = (prefixSums acc l).map e := by
  induction l generalizing acc with
  | nil => rfl
  | cons a l ih => simp only [List.map_cons, prefixSums, ← h.add, ih]

/-- A state of an unweighted estimator, embedded. -/
def PsqSt.emb (e : A → B) (s : PsqSt A) : PsqSt B := ⟨s.cnt, s.heights.map e, s.pos.map e, s.des.map e⟩

/-- A state of a weighted estimator, embedded. -/
def WPsqSt.emb (e : A → B) (s : WPsqSt A) : WPsqSt B := ⟨s.cnt, e s.wsum, s.heights.map e, s.pos.map e⟩

theorem psqPush_emb (h : Emb e) (incr : List A) (s : PsqSt A) (x : A) :
    psqPush (incr.map e) (s.emb e) (e x) = PsqSt.emb e <$> psqPush incr s x := by
  unfold psqPush psqStep
  simp only [PsqSt.emb, List.length_map]
  split
  · rw [setAt_emb, Res.map_bind', Res.bind_map']
    refine Res.bind_congr fun hs => ?_
    simp only [Res.pure_eq, Res.map_val]
    congr 1
    unfold PsqSt.emb
    split
    · rw [List.map_insertionSort (r := (· ≤ ·)) (s := (· ≤ ·)) e hs (fun a _ b _ => h.le.symm)]
    · rfl
  · rw [psqCell_emb h, Res.map_bind', Res.bind_map']
    refine Res.bind_congr fun c => ?_
    have hz : List.zipWith (· + ·) (s.des.map e) (incr.map e) = (List.zipWith (· + ·) s.des incr).map e := by
      rw [List.zipWith_map, List.map_zipWith]
      simp only [h.add]
    rw [hz, ← h.one, psqBump_emb h, psqAdjust_emb h _ (c.1, psqBump c.2.1 1 s.pos), Res.map_bind', Res.bind_map']
    rfl

theorem wpsqPush_emb (h : Emb e) {m summed : ℕ} {desired : A → A → Res (List A)} {desired' : B → B → Res (List B)}
    (hd : ∀ a b, desired' (e a) (e b) = List.map e <$> desired a b) (s : WPsqSt A) (p : A × A) :
    wpsqPush m summed desired' (s.emb e) (e p.1, e p.2) = WPsqSt.emb e <$> wpsqPush m summed desired s p := by
  unfold wpsqPush wpsqStep
  simp only [WPsqSt.emb]
  by_cases hc : s.cnt + 1 ≤ m
  · simp only [hc, if_true]
    rw [setAt_emb, Res.map_bind', Res.bind_map']
    refine Res.bind_congr fun hs => ?_
    rw [setAt_emb, Res.map_bind', Res.bind_map']
    refine Res.bind_congr fun ns => ?_
    by_cases hm : s.cnt + 1 = m
    · simp only [hm, if_true, Res.pure_eq, Res.map_val]
      congr 1
      unfold WPsqSt.emb
      have hz : (hs.map e).zip (ns.map e) = (hs.zip ns).map (Prod.map e e) := by rw [List.zip_map]
      rw [hz, selSort_emb h]
      simp only [List.map_map, List.map_append, List.map_drop, h.add]
      congr 2
      rw [← h.zero, ← prefixSums_emb h, List.map_take, List.map_map]
      rfl
    · simp only [hm, if_false, Res.pure_eq, Res.map_val, WPsqSt.emb, h.add]
  · simp only [hc, if_false]
    rw [psqCell_emb h, Res.map_bind', Res.bind_map']
    refine Res.bind_congr fun c => ?_
    have hp : ∀ pos : List A, (do
          let n0 ← getAt (psqBump c.2.1 (e p.2) (pos.map e)) 0
          let des ← desired' n0 (e s.wsum + e p.2)
          let r ← psqAdjust des (c.1.map e, psqBump c.2.1 (e p.2) (pos.map e))
          pure ⟨s.cnt + 1, e s.wsum + e p.2, r.1, r.2⟩ : Res (WPsqSt B)) = WPsqSt.emb e <$> (do
          let n0 ← getAt (psqBump c.2.1 p.2 pos) 0
          let des ← desired n0 (s.wsum + p.2)
          let r ← psqAdjust des (c.1, psqBump c.2.1 p.2 pos)
          pure ⟨s.cnt + 1, s.wsum + p.2, r.1, r.2⟩ : Res (WPsqSt A)) := by
      intro pos
      rw [psqBump_emb h, getAt_emb, Res.map_bind', Res.bind_map']
      refine Res.bind_congr fun n0 => ?_
      rw [← h.add, hd, Res.map_bind', Res.bind_map']
      refine Res.bind_congr fun des => ?_
      rw [psqAdjust_emb h _ (c.1, psqBump c.2.1 p.2 pos), Res.map_bind', Res.bind_map']
      rfl
    by_cases hb : c.2.2 = true
    · simp only [hb, if_true]
      rw [setAt_emb, Res.map_bind', Res.bind_map']
      exact Res.bind_congr hp
    · simp only [hb]
      exact hp s.pos

end

/-! ## Finite numbers among all numbers -/

section
variable {K : Type} [Field K] [LinearOrder K] [IsStrictOrderedRing K] {F : Fmt K}

/-- A representable number. -/
def Ext.ofFl (a : Fl F.toRounding) : Ext F := fin a.val

/-- The representable number, if it is one. -/
def Ext.toFl : Ext F → Option (Fl F.toRounding)
  | fin a => if h : F.rd a = a then some ⟨a, h⟩ else none
  | _ => none

/-- A sample that is a number of the format or NaN, but not infinite. -/
def Ext.NumOrNaN : Ext F → Prop
  | fin a => F.rd a = a
  | nan => True
  | _ => False

@[simp] theorem toFl_ofFl (a : Fl F.toRounding) : toFl (ofFl a) = some a := by
  have : F.rd a.val = a.val := a.rd_val
  simp only [ofFl, toFl, this, dif_pos]
  rfl

@[simp] theorem toFl_nan : toFl (nan : Ext F) = none := rfl

theorem of_toFl {x : Ext F} {a : Fl F.toRounding} (h : toFl x = some a) : x = ofFl a := by
  cases x with
  | fin b =>
    simp only [toFl] at h
    split at h
    · cases h; rfl
    · cases h
  | _ => cases h

theorem Ext.NumOrNaN.cases {x : Ext F} (h : x.NumOrNaN) : x = nan ∨ ∃ a, x = ofFl a := by
  cases x with
  | fin b => exact .inr ⟨⟨b, h⟩, rfl⟩
  | nan => exact .inl rfl
  | pinf => cases h
  | ninf => cases h

theorem of_nohuge (hF : ∀ x, F.huge x = false) (x : K) : of F x = fin (F.rd x) := by simp [of, hF]

theorem natCast_ofFl (hF : ∀ x, F.huge x = false) (n : ℕ) : ofFl ((n : ℕ) : Fl F.toRounding) = ((n : ℕ) : Ext F) := by
  rw [natCast_def, of_nohuge hF]
  rfl

theorem emb_ofFl (hF : ∀ x, F.huge x = false) : Emb (ofFl : Fl F.toRounding → Ext F) where
  inj := by
    intro a b
    constructor
    · intro h
      exact Subtype.ext (Ext.fin.inj h)
    · rintro rfl; rfl
  zero := rfl
  one := rfl
  add a b := (of_nohuge hF _).symm
  sub a b := (of_nohuge hF _).symm
  mul a b := (of_nohuge hF _).symm
  neg a := rfl
  div a b hb := by
    have hb' : b.val ≠ 0 := fun h => hb (Subtype.ext h)
    show _ = div (fin a.val) (fin b.val)
    rw [div, if_neg hb', of_nohuge hF]
    rfl
  lt := by
    intro a b
    rw [lt_def, Fl.lt_iff]
    simp [lt, ofFl]
  le := by
    intro a b
    rw [Fl.le_iff]
    show le (ofFl a) (ofFl b) = true ↔ _
    simp [le, ofFl]

theorem two_ofFl (hF : ∀ x, F.huge x = false) : ofFl (2 : Fl F.toRounding) = (2 : Ext F) := natCast_ofFl hF 2

theorem two_ne : (2 : Fl F.toRounding) ≠ 0 := by
  intro h
  have h1 : (2 : Fl F.toRounding).val = F.rd ((2 : ℕ) : K) := rfl
  rw [h, Nat.cast_two, F.two] at h1
  exact two_ne_zero h1.symm

/-! ## A NaN sample -/

theorem psqCell_nan {l : List (Ext F)} (hl : 0 < l.length) : psqCell l nan = .val (l, l.length, false) := by
  unfold psqCell
  have hu : upperBound l nan = .val l.length := by
    have hk : l.findIdx (fun e => decide ((nan : Ext F) < e)) = l.length :=
      List.findIdx_eq_length.2 fun x _ => by simp [not_nan_lt]
    unfold upperBound
    simp only [hk, List.drop_length, List.all_nil, if_true]
  have h2 : ¬ l[l.length - 1] ≤ (nan : Ext F) := by
    show ¬ le _ nan = true
    generalize l[l.length - 1] = z
    cases z <;> simp [le]
  rw [getAt_lt hl, Res.val_bind, if_neg (not_nan_lt _), getAt_lt (by omega), Res.val_bind, if_neg h2, hu]
  rfl

theorem psqBump_end {A : Type} [Arith A] [DecidableEq A] [LE A] [LT A] [DecidableLE A] [DecidableLT A] {k : ℕ} (w : A)
    {pos : List A} (h : pos.length ≤ k) : psqBump k w pos = pos := by
  unfold psqBump
  apply List.ext_getElem
  · simp
  · intro i h1 h2
    rw [List.getElem_mapIdx, if_neg (by omega)]

/-- The adjustment without a new sample. -/
theorem heights_keep {R : Rounding K} (hs : R.Shrinks) {m : ℕ} {hts xs : List (Fl R)}
    (h : HeightsOk m hts xs) (hc : m ≤ xs.length) (pos des : List (Fl R)) (hp : pos.length = m) (hd : des.length = m) :
    ∃ h'' pos', psqAdjust des (hts, pos) = .val (h'', pos') ∧ HeightsOk m h'' xs ∧ pos'.length = m := by
  obtain ⟨q, rfl, hq, hmin, hmax⟩ := h.after hc
  obtain ⟨q2, n2, e2, o2, k2, l2⟩ := psqAdjust_heights hs (n := fun i => (pos[i]?).getD 0) hq (fun i => (des[i]?).getD 0)
  have ep := eq_tab pos 0
  have ed := eq_tab des 0
  rw [hp] at ep
  rw [hd] at ed
  refine ⟨tab m q2, tab m n2, ?_, ⟨fun h' => ?_, fun _ => ⟨q2, rfl, o2, ?_⟩⟩, by simp⟩
  · rw [ep, ed]; exact e2
  · omega
  · rw [k2, l2]
    exact ⟨hmin, hmax⟩

/-! ## Histories -/

/-- Invariants of histories whose samples satisfy a condition closed under prefixes. -/
theorem exec_inv_pre {X Q S A : Type} (M : RMachine X Q S A) (I : S → List X → Prop) (P : List X → Prop)
    (hpre : ∀ xs ys, P (xs ++ ys) → P xs)
    (hpush : ∀ s xs x, P (xs ++ [x]) → I s xs → ∃ s', M.push s x = .val s' ∧ I s' (xs ++ [x]))
    (hquery : ∀ s xs q, I s xs → ∃ s' r, M.query s q = .val (s', r) ∧ I s' xs)
    (h : List (Op X Q)) (s : S) (xs : List X) (h0 : I s xs) (hP : P (xs ++ pushes h)) :
    ∃ s', M.exec s h = .val s' ∧ I s' (xs ++ pushes h) := by
  induction h generalizing s xs with
  | nil => exact ⟨s, rfl, by simpa [pushes] using h0⟩
  | cons o os ih =>
    cases o with
    | push x =>
      have hP' : P ((xs ++ [x]) ++ pushes os) := by simpa [pushes] using hP
      obtain ⟨s', e, i⟩ := hpush s xs x (hpre _ _ hP') h0
      obtain ⟨s'', e', i'⟩ := ih s' (xs ++ [x]) i hP'
      refine ⟨s'', ?_, by simpa [pushes] using i'⟩
      unfold RMachine.exec
      rw [RMachine.exec1, e, Res.val_bind, e']
    | query q =>
      obtain ⟨s', r, e, i⟩ := hquery s xs q h0
      obtain ⟨s'', e', i'⟩ := ih s' xs i hP
      refine ⟨s'', ?_, i'⟩
      unfold RMachine.exec
      rw [RMachine.exec1, e, Res.val_bind, Res.pure_eq, Res.val_bind, e']

/-- No sample is infinite and the first `m` are numbers. -/
def NaNLate (m : ℕ) (xs : List (Ext F)) : Prop := (∀ x ∈ xs, x.NumOrNaN) ∧ ∀ x ∈ xs.take m, x ≠ nan

theorem NaNLate.pre {m : ℕ} (xs ys : List (Ext F)) (h : NaNLate m (xs ++ ys)) : NaNLate m xs := by
  refine ⟨fun x hx => h.1 x (by simp [hx]), fun x hx => h.2 x ?_⟩
  rw [List.take_append]
  exact List.mem_append_left _ hx

theorem filterMap_length {m : ℕ} {xs : List (Ext F)} (h : NaNLate m xs) (hx : xs.length ≤ m) :
    (xs.filterMap toFl).length = xs.length := by
  have h2 := h.2
  rw [List.take_of_length_le hx] at h2
  have h1 := h.1
  clear hx h
  induction xs with
  | nil => rfl
  | cons x xs ih =>
    rcases (h1 x (by simp)).cases with rfl | ⟨a, rfl⟩
    · exact absurd rfl (h2 nan (by simp))
    · rw [List.filterMap_cons, toFl_ofFl]
      simp only [List.length_cons]
      rw [ih (fun y hy => h2 y (by simp [hy])) (fun y hy => h1 y (by simp [hy]))]

theorem le_filterMap {m : ℕ} {xs : List (Ext F)} (h : NaNLate m xs) (hx : m ≤ xs.length) :
    m ≤ (xs.filterMap toFl).length := by
  have e := filterMap_length (NaNLate.pre (xs.take m) (xs.drop m) (by rwa [List.take_append_drop])) (by simp)
  rw [List.length_take, min_eq_left hx] at e
  rw [← e]
  conv_rhs => rw [← List.take_append_drop m xs, List.filterMap_append, List.length_append]
  omega

/-- State of an unweighted estimator after the samples `xs`, some of them NaN. -/
def PsqSt.NInv (m : ℕ) (s : PsqSt (Ext F)) (xs : List (Ext F)) : Prop :=
  ∃ t : PsqSt (Fl F.toRounding), s = t.emb ofFl ∧ t.cnt = xs.length ∧ t.des.length = m ∧ t.pos.length = m ∧
    HeightsOk m t.heights (xs.filterMap toFl)

theorem psqPush_nan (hF : ∀ x, F.huge x = false) (hs : F.toRounding.Shrinks) {m : ℕ} (hm : 2 ≤ m)
    {incr : List (Fl F.toRounding)} (hil : incr.length = m) {s : PsqSt (Ext F)} {xs : List (Ext F)} (x : Ext F)
    (hx : NaNLate m (xs ++ [x])) (h : s.NInv m xs) :
    ∃ s', psqPush (incr.map ofFl) s x = .val s' ∧ s'.NInv m (xs ++ [x]) := by
  obtain ⟨t, rfl, hcnt, hdes, hpos, hh⟩ := h
  have e := emb_ofFl hF
  have hx' := NaNLate.pre _ _ hx
  by_cases hc : xs.length + 1 ≤ m
  · obtain ⟨a, rfl⟩ : ∃ a, x = ofFl a := by
      rcases (hx.1 x (by simp)).cases with rfl | k
      · exact absurd rfl (hx.2 nan (by rw [List.take_of_length_le (by simpa using hc)]; simp))
      · exact k
    have hl := filterMap_length hx' (by omega)
    obtain ⟨t', e', I⟩ := psqPush_heights hs hm hil a ⟨hcnt.trans hl.symm, hdes, hpos, hh⟩
    refine ⟨t'.emb ofFl, ?_, t', rfl, ?_, I.des, I.pos, ?_⟩
    · rw [psqPush_emb e, e', Res.map_val]
    · rw [I.cnt]; simp [hl]
    · simpa using I.heights
  · have hm' := le_filterMap hx' (by omega)
    have hdl : (List.zipWith (· + ·) t.des incr).length = m := by simp [hdes, hil]
    rcases (hx.1 x (by simp)).cases with rfl | ⟨a, rfl⟩
    · obtain ⟨h'', pos', e2, I, hp⟩ := heights_keep hs hh hm' t.pos (List.zipWith (· + ·) t.des incr) hpos hdl
      refine ⟨PsqSt.emb ofFl ⟨xs.length + 1, h'', pos', List.zipWith (· + ·) t.des incr⟩, ?_,
        ⟨xs.length + 1, h'', pos', List.zipWith (· + ·) t.des incr⟩, rfl, by simp, hdl, hp, by simpa [List.filterMap_cons] using I⟩
      have hz : List.zipWith (· + ·) (t.des.map ofFl) (incr.map ofFl) = (List.zipWith (· + ·) t.des incr).map ofFl := by
        rw [List.zipWith_map, List.map_zipWith]
        simp only [e.add]
      unfold psqPush psqStep
      simp only [PsqSt.emb, List.length_map, hil, hcnt, hc, if_false]
      rw [psqCell_nan (by rw [List.length_map, hh.len]; omega), Res.val_bind]
      simp only
      rw [psqBump_end _ (by rw [List.length_map, List.length_map, hh.len, hpos]), hz,
        psqAdjust_emb e _ (t.heights, t.pos), e2]
      rfl
    · obtain ⟨h', k, b, e1, hadj⟩ := heights_later hs hm hh hm' a
      obtain ⟨h'', pos', e2, I, hp⟩ := hadj (psqBump k 1 t.pos) (List.zipWith (· + ·) t.des incr)
        (by simp [psqBump, hpos]) hdl
      refine ⟨PsqSt.emb ofFl ⟨xs.length + 1, h'', pos', List.zipWith (· + ·) t.des incr⟩, ?_,
        ⟨xs.length + 1, h'', pos', List.zipWith (· + ·) t.des incr⟩, rfl, by simp, hdl, hp, by simpa using I⟩
      rw [psqPush_emb e]
      unfold psqPush psqStep
      simp only [hil, hcnt, hc, if_false]
      rw [e1, Res.val_bind]
      simp only
      rw [e2]
      rfl

theorem psqInit_nan {m : ℕ} (hm : 2 ≤ m) {incr des : List (Fl F.toRounding)} (hi : incr.length = m)
    (hd : des.length = m) (hF : ∀ x, F.huge x = false) :
    (psqInit (incr.map ofFl) (des.map ofFl) : PsqSt (Ext F)).NInv m [] := by
  have I := psqInit_heights hm hi hd
  refine ⟨psqInit incr des, ?_, rfl, I.des, I.pos, by simpa using I.heights⟩
  have e := emb_ofFl hF
  unfold psqInit PsqSt.emb
  simp only [List.map_map, List.length_map]
  congr 1
  apply List.map_congr_left
  intro i _
  show _ = ofFl _
  rw [e.add, e.one, natCast_ofFl hF]

/-- A height of the embedded state lies within the samples. -/
theorem within_emb (hF : ∀ x, F.huge x = false) {m : ℕ} {hts : List (Fl F.toRounding)} {xs : List (Ext F)}
    (h : HeightsOk m hts (xs.filterMap toFl)) (hx : m ≤ (xs.filterMap toFl).length) {i : ℕ} (hi : i < m) :
    ∃ v, getAt (hts.map ofFl) i = .val v ∧ (∃ a ∈ xs, a ≤ v) ∧ ∃ b ∈ xs, v ≤ b := by
  obtain ⟨v, ev, ⟨a, ha, hav⟩, b, hb, hvb⟩ := h.within hx hi
  have mem : ∀ a ∈ xs.filterMap toFl, ofFl a ∈ xs := by
    intro a ha
    obtain ⟨y, hy, e⟩ := List.mem_filterMap.1 ha
    rw [← of_toFl e]
    exact hy
  refine ⟨ofFl v, by rw [getAt_emb, ev]; rfl, ⟨_, mem a ha, (emb_ofFl hF).le.2 hav⟩, _, mem b hb, (emb_ofFl hF).le.2 hvb⟩

theorem psqQuantileIncr_emb (hF : ∀ x, F.huge x = false) (p : Fl F.toRounding) :
    psqQuantileIncr (ofFl p) = (psqQuantileIncr p).map ofFl := by
  have e := emb_ofFl hF
  simp only [psqQuantileIncr, List.map_cons, List.map_nil, e.div _ _ two_ne, e.add, e.zero, e.one, two_ofFl hF]

theorem psqQuantileDes_emb (hF : ∀ x, F.huge x = false) (p : Fl F.toRounding) :
    psqQuantileDes (ofFl p) = (psqQuantileDes p).map ofFl := by
  have e := emb_ofFl hF
  have e3 : ofFl (3 : Fl F.toRounding) = (3 : Ext F) := natCast_ofFl hF 3
  have e4 : ofFl (4 : Fl F.toRounding) = (4 : Ext F) := natCast_ofFl hF 4
  have e5 : ofFl (5 : Fl F.toRounding) = (5 : Ext F) := natCast_ofFl hF 5
  simp only [psqQuantileDes, List.map_cons, List.map_nil, e.mul, e.add, e.one, two_ofFl hF, e3, e4, e5]

/-- **C88** NaN samples after the first five never reach the estimate of `p_square_quantile` (and of `median`): it is a
number between two of the samples, and nothing is undefined. -/
theorem C88_quantile (hF : ∀ x, F.huge x = false) (hs : F.toRounding.Shrinks) {p : Ext F} (hp : p.NumOrNaN)
    (hp' : p ≠ nan) (h : List (Op (Ext F) Unit)) (hx : NaNLate 5 (pushes h)) (h5 : 5 ≤ (pushes h).length) :
    ∃ v, (psqQuantileSet p).answer h () = .val v ∧ (∃ a ∈ pushes h, a ≤ v) ∧ ∃ b ∈ pushes h, v ≤ b := by
  obtain ⟨p, rfl⟩ := hp.cases.resolve_left hp'
  have hinit : (psqQuantileSet (ofFl p)).init.NInv 5 ([] : List (Ext F)) := by
    show (psqInit _ _).NInv 5 _
    rw [psqQuantileIncr_emb hF, psqQuantileDes_emb hF]
    exact psqInit_nan (by norm_num) rfl rfl hF
  obtain ⟨s, e, I⟩ := exec_inv_pre (psqQuantileSet (ofFl p)) (fun s xs => s.NInv 5 xs) (NaNLate 5) NaNLate.pre
    (fun s xs x hx I => by
      have := psqPush_nan hF hs (m := 5) (by norm_num) (incr := psqQuantileIncr p) rfl x hx I
      rw [← psqQuantileIncr_emb hF] at this
      exact this)
    (fun s xs q I => by
      obtain ⟨t, rfl, I'⟩ := I
      have hl : 2 < (t.heights.map ofFl : List (Ext F)).length := by rw [List.length_map, I'.2.2.2.len]; norm_num
      refine ⟨_, (t.heights.map ofFl)[2], ?_, t, rfl, I'⟩
      show (getAt (t.heights.map ofFl) 2 >>= _) = _
      rw [getAt_lt hl]
      rfl)
    h _ [] hinit (by simpa using hx)
  rw [List.nil_append] at I
  obtain ⟨t, rfl, -, -, -, I⟩ := I
  obtain ⟨v, ev, hv⟩ := within_emb hF (i := 2) I (le_filterMap hx h5) (by norm_num)
  refine ⟨v, ?_, hv⟩
  unfold RMachine.answer
  rw [e, Res.val_bind]
  show (getAt (t.heights.map ofFl) 2 >>= _) >>= _ = _
  rw [ev]
  rfl

theorem interleave_emb (hF : ∀ x, F.huge x = false) (a : Fl F.toRounding) (ps : List (Fl F.toRounding)) :
    interleave (ofFl a) (ps.map ofFl) = (interleave a ps).map (ofFl (F := F)) := by
  have e := emb_ofFl hF
  induction ps generalizing a with
  | nil => rfl
  | cons p ps ih =>
    simp only [List.map_cons, interleave, ih, e.mul, e.add, e.div _ _ two_ne, e.one, two_ofFl hF]

theorem epsqIncr_emb (hF : ∀ x, F.huge x = false) (ps : List (Fl F.toRounding)) :
    epsqIncr (ps.map ofFl) = (epsqIncr ps).map (ofFl (F := F)) := by
  have e := emb_ofFl hF
  have := interleave_emb hF 0 (ps ++ [1])
  rw [List.map_append, List.map_singleton, e.one, e.zero] at this
  simp only [epsqIncr, List.map_cons, this, e.zero]

theorem epsqDes_emb (hF : ∀ x, F.huge x = false) (ps : List (Fl F.toRounding)) :
    epsqDes (ps.map ofFl) = (epsqDes ps).map (ofFl (F := F)) := by
  have e := emb_ofFl hF
  unfold epsqDes
  rw [epsqIncr_emb hF, List.map_map, List.map_map]
  apply List.map_congr_left
  intro f _
  simp only [Function.comp_def, List.length_map, e.mul, e.add, e.one, two_ofFl hF, natCast_ofFl hF]

theorem interleave_len (a : Fl F.toRounding) (ps : List (Fl F.toRounding)) :
    (interleave a ps).length = 2 * ps.length := by
  induction ps generalizing a with
  | nil => rfl
  | cons p ps ih => simp only [interleave, List.length_cons, ih]; omega

theorem epsqIncr_len (ps : List (Fl F.toRounding)) : (epsqIncr ps).length = 2 * ps.length + 3 := by
  simp only [epsqIncr, List.length_cons, interleave_len, List.length_append, List.length_nil]
  omega

theorem mapRes_emb {α β : Type} (f : α → β) (l : List α) (is : List ℕ) (g : ℕ → ℕ) :
    mapRes (fun i => getAt (l.map f) (g i)) is = List.map f <$> mapRes (fun i => getAt l (g i)) is := by
  induction is with
  | nil => rfl
  | cons i is ih =>
    unfold mapRes
    rw [getAt_emb, Res.map_bind', Res.bind_map']
    refine Res.bind_congr fun b => ?_
    rw [ih, Res.map_bind', Res.bind_map']
    rfl

theorem epsqResult_emb (n : ℕ) (l : List (Fl F.toRounding)) :
    epsqResult n (l.map (ofFl (F := F))) = List.map ofFl <$> epsqResult n l :=
  mapRes_emb ofFl l _ _

/-- The estimates of the extended estimators, embedded. -/
theorem extended_emb (hF : ∀ x, F.huge x = false) {n : ℕ} {hts : List (Fl F.toRounding)} {xs : List (Ext F)}
    (h : HeightsOk (2 * n + 3) hts (xs.filterMap toFl)) (hx : 2 * n + 3 ≤ (xs.filterMap toFl).length) :
    ∃ vs, epsqResult n (hts.map ofFl) = .val vs ∧ vs.length = n ∧ vs.Pairwise (· ≤ ·) ∧
      ∀ v ∈ vs, (∃ a ∈ xs, a ≤ v) ∧ ∃ b ∈ xs, v ≤ b := by
  obtain ⟨vs, e, hl, ho, hv⟩ := h.extended hx
  have em := emb_ofFl hF
  have mem : ∀ a ∈ xs.filterMap toFl, ofFl a ∈ xs := by
    intro a ha
    obtain ⟨y, hy, e⟩ := List.mem_filterMap.1 ha
    rw [← of_toFl e]
    exact hy
  refine ⟨vs.map ofFl, by rw [epsqResult_emb, e]; rfl, by simpa using hl, ?_, ?_⟩
  · rw [List.pairwise_map]
    exact ho.imp fun h => em.le.2 h
  · rw [List.forall_mem_map]
    intro v hv'
    obtain ⟨⟨a, ha, h1⟩, b, hb, h2⟩ := hv v hv'
    exact ⟨⟨_, mem a ha, em.le.2 h1⟩, _, mem b hb, em.le.2 h2⟩

theorem exists_map_ofFl {ps : List (Ext F)} (hp : ∀ p ∈ ps, p.NumOrNaN ∧ p ≠ nan) :
    ∃ qs : List (Fl F.toRounding), ps = qs.map ofFl := by
  induction ps with
  | nil => exact ⟨[], rfl⟩
  | cons p ps ih =>
    obtain ⟨qs, rfl⟩ := ih fun q hq => hp q (by simp [hq])
    obtain ⟨a, rfl⟩ := (hp p (by simp)).1.cases.resolve_left (hp p (by simp)).2
    exact ⟨a :: qs, rfl⟩

/-- **C88** The same for `extended_p_square`. -/
theorem C88_extended (hF : ∀ x, F.huge x = false) (hs : F.toRounding.Shrinks) {ps : List (Ext F)}
    (hp : ∀ p ∈ ps, p.NumOrNaN ∧ p ≠ nan) (h : List (Op (Ext F) Unit)) (hx : NaNLate (2 * ps.length + 3) (pushes h))
    (hn : 2 * ps.length + 3 ≤ (pushes h).length) :
    ∃ vs, (epsqSet ps).answer h () = .val vs ∧ vs.length = ps.length ∧ vs.Pairwise (· ≤ ·) ∧
      ∀ v ∈ vs, (∃ a ∈ pushes h, a ≤ v) ∧ ∃ b ∈ pushes h, v ≤ b := by
  obtain ⟨ps, rfl⟩ := exists_map_ofFl hp
  rw [List.length_map] at *
  have hinit : (epsqSet (ps.map ofFl)).init.NInv (2 * ps.length + 3) ([] : List (Ext F)) := by
    show (psqInit _ _).NInv _ _
    rw [epsqIncr_emb hF, epsqDes_emb hF]
    exact psqInit_nan (by omega) (epsqIncr_len ps) (by simp [epsqDes, epsqIncr_len]) hF
  obtain ⟨s, e, I⟩ := exec_inv_pre (epsqSet (ps.map ofFl)) (fun s xs => s.NInv (2 * ps.length + 3) xs)
    (NaNLate (2 * ps.length + 3)) NaNLate.pre
    (fun s xs x hx I => by
      have := psqPush_nan hF hs (by omega) (epsqIncr_len ps) x hx I
      rw [← epsqIncr_emb hF] at this
      exact this)
    (fun s xs q I => by
      obtain ⟨t, rfl, I'⟩ := I
      obtain ⟨vs, ev⟩ := epsqResult_defined (n := ps.length) I'.2.2.2.len
      refine ⟨_, vs.map ofFl, ?_, t, rfl, I'⟩
      show (epsqResult (ps.map ofFl).length (t.heights.map ofFl) >>= _) = _
      rw [List.length_map, epsqResult_emb, ev]
      rfl)
    h _ [] hinit (by simpa using hx)
  rw [List.nil_append] at I
  obtain ⟨t, rfl, -, -, -, I⟩ := I
  obtain ⟨vs, ev, hv⟩ := extended_emb hF I (le_filterMap hx hn)
  refine ⟨vs, ?_, hv⟩
  unfold RMachine.answer
  rw [e, Res.val_bind]
  show (epsqResult (ps.map ofFl).length (t.heights.map ofFl) >>= _) >>= _ = _
  rw [List.length_map, ev]
  rfl

/-! ## Weights -/

/-- A weighted sample that is a number with its weight. -/
def Ext.toFl2 (p : Ext F × Ext F) : Option (Fl F.toRounding × Fl F.toRounding) :=
  match toFl p.1, toFl p.2 with
  | some a, some w => some (a, w)
  | _, _ => none

/-- No sample is infinite, the first `m` are numbers and so are all weights. -/
def WNaNLate (m : ℕ) (ps : List (Ext F × Ext F)) : Prop :=
  NaNLate m (ps.map Prod.fst) ∧ ∀ p ∈ ps, p.2.NumOrNaN ∧ p.2 ≠ nan

theorem WNaNLate.pre {m : ℕ} (xs ys : List (Ext F × Ext F)) (h : WNaNLate m (xs ++ ys)) : WNaNLate m xs := by
  refine ⟨NaNLate.pre _ (ys.map Prod.fst) ?_, fun p hp => h.2 p (by simp [hp])⟩
  rw [← List.map_append]
  exact h.1

theorem filterMap_toFl2 {ps : List (Ext F × Ext F)} (h : ∀ p ∈ ps, p.2.NumOrNaN ∧ p.2 ≠ nan) :
    (ps.filterMap toFl2).map Prod.fst = (ps.map Prod.fst).filterMap toFl := by
  induction ps with
  | nil => rfl
  | cons p ps ih =>
    have ih := ih fun q hq => h q (by simp [hq])
    obtain ⟨w, hw⟩ := (h p (by simp)).1.cases.resolve_left (h p (by simp)).2
    rw [List.map_cons, List.filterMap_cons, List.filterMap_cons]
    have : toFl2 p = (toFl p.1).map fun a => (a, w) := by
      unfold toFl2
      rw [hw, toFl_ofFl]
      cases toFl p.1 <;> rfl
    rw [this]
    cases toFl p.1 with
    | none => exact ih
    | some a => simp only [Option.map_some, List.map_cons, ih]

/-- State of a weighted estimator. -/
def WPsqSt.NInv (m : ℕ) (s : WPsqSt (Ext F)) (ps : List (Ext F × Ext F)) : Prop :=
  ∃ t : WPsqSt (Fl F.toRounding), s = t.emb ofFl ∧ t.cnt = ps.length ∧ t.pos.length = m ∧
    (ps.length < m → t.pos = (ps.filterMap toFl2).map Prod.snd ++ List.replicate (m - ps.length) 0) ∧
    HeightsOk m t.heights ((ps.filterMap toFl2).map Prod.fst)

theorem wpsqPush_nan (hF : ∀ x, F.huge x = false) (hs : F.toRounding.Shrinks) {m summed : ℕ} (hm : 2 ≤ m)
    (hsm : summed ≤ m) {desired : Fl F.toRounding → Fl F.toRounding → Res (List (Fl F.toRounding))}
    {desired' : Ext F → Ext F → Res (List (Ext F))}
    (hd : ∀ n0 W, ∃ des, desired n0 W = .val des ∧ des.length = m)
    (hd' : ∀ a b, desired' (ofFl a) (ofFl b) = List.map ofFl <$> desired a b)
    {s : WPsqSt (Ext F)} {ps : List (Ext F × Ext F)} (p : Ext F × Ext F) (hx : WNaNLate m (ps ++ [p]))
    (h : s.NInv m ps) : ∃ s', wpsqPush m summed desired' s p = .val s' ∧ s'.NInv m (ps ++ [p]) := by
  obtain ⟨t, rfl, hcnt, hpos, hbef, hh⟩ := h
  have e := emb_ofFl hF
  have hx' := WNaNLate.pre _ _ hx
  have hfm := filterMap_toFl2 hx'.2
  obtain ⟨x, w⟩ := p
  obtain ⟨w, rfl⟩ : ∃ a, w = ofFl a := (hx.2 (x, w) (by simp)).1.cases.resolve_left (hx.2 (x, w) (by simp)).2
  by_cases hc : ps.length + 1 ≤ m
  · obtain ⟨a, rfl⟩ : ∃ a, x = ofFl a := by
      rcases (hx.1.1 x (by simp)).cases with rfl | k
      · exact absurd rfl (hx.1.2 nan (by rw [List.take_of_length_le (by simpa using hc)]; simp))
      · exact k
    have hl : (ps.filterMap toFl2).length = ps.length := by
      have := filterMap_length hx'.1 (by rw [List.length_map]; omega)
      rw [← hfm, List.length_map, List.length_map] at this
      exact this
    obtain ⟨t', e', I⟩ := wpsqPush_heights hs hm hsm hd (a, w)
      ⟨hcnt.trans hl.symm, hpos, fun h => by rw [hl]; exact hbef (by omega), hh⟩
    have hf : (ps ++ [(ofFl a, ofFl w)]).filterMap toFl2 = ps.filterMap toFl2 ++ [(a, w)] := by
      simp [List.filterMap_append, toFl2]
    refine ⟨t'.emb ofFl, ?_, t', rfl, ?_, I.pos, ?_, ?_⟩
    · rw [wpsqPush_emb e hd' t (a, w), e', Res.map_val]
    · rw [I.cnt]; simp [hl]
    · intro h1
      rw [hf, I.before (by simpa [hl] using h1)]
      simp [hl]
    · rw [hf]; exact I.heights
  · have hm' : m ≤ ((ps.filterMap toFl2).map Prod.fst).length := by
      rw [hfm]
      exact le_filterMap hx'.1 (by rw [List.length_map]; omega)
    rcases (hx.1.1 x (by simp)).cases with rfl | ⟨a, rfl⟩
    · have l0 : 0 < t.pos.length := by omega
      obtain ⟨des, e3, l4⟩ := hd t.pos[0] (t.wsum + w)
      obtain ⟨h'', pos', e2, I, hp⟩ := heights_keep hs hh hm' t.pos des hpos l4
      have hf : (ps ++ [((nan : Ext F), ofFl w)]).filterMap toFl2 = ps.filterMap toFl2 := by
        simp [List.filterMap_append, toFl2]
      refine ⟨WPsqSt.emb ofFl ⟨ps.length + 1, t.wsum + w, h'', pos'⟩, ?_,
        ⟨ps.length + 1, t.wsum + w, h'', pos'⟩, rfl, by simp, hp, fun h1 => by simp at h1; omega, by rw [hf]; exact I⟩
      unfold wpsqPush wpsqStep
      simp only [WPsqSt.emb, hcnt, hc, if_false]
      rw [psqCell_nan (by rw [List.length_map, hh.len]; omega), Res.val_bind]
      show (getAt (psqBump _ _ (t.pos.map ofFl)) 0 >>= _) = _
      rw [psqBump_end _ (by rw [List.length_map, List.length_map, hh.len, hpos]), getAt_emb, getAt_lt l0, Res.map_val,
        Res.val_bind, ← e.add, hd', e3, Res.map_val, Res.val_bind]
      simp only
      rw [psqAdjust_emb e _ (t.heights, t.pos), e2]
      rfl
    · obtain ⟨h', k, b, e1, hadj⟩ := heights_later hs hm hh hm' a
      have hf : (ps ++ [(ofFl a, ofFl w)]).filterMap toFl2 = ps.filterMap toFl2 ++ [(a, w)] := by
        simp [List.filterMap_append, toFl2]
      have rest : ∀ pos : List (Fl F.toRounding), pos.length = m → ∃ t' : WPsqSt (Fl F.toRounding), (do
          let n0 ← getAt (psqBump k w pos) 0
          let des ← desired n0 (t.wsum + w)
          let r ← psqAdjust des (h', psqBump k w pos)
          pure ⟨ps.length + 1, t.wsum + w, r.1, r.2⟩ : Res (WPsqSt (Fl F.toRounding))) = .val t' ∧
            t'.cnt = ps.length + 1 ∧ t'.pos.length = m ∧
            HeightsOk m t'.heights ((ps.filterMap toFl2 ++ [(a, w)]).map Prod.fst) := by
        intro pos l2
        have l3 : (psqBump k w pos).length = m := by simp [psqBump, l2]
        rw [getAt_lt (show 0 < (psqBump k w pos).length by omega), Res.val_bind]
        obtain ⟨des, e3, l4⟩ := hd (psqBump k w pos)[0] (t.wsum + w)
        obtain ⟨h'', pos', e4, I, l5⟩ := hadj (psqBump k w pos) des l3 l4
        rw [e3, Res.val_bind, e4, Res.val_bind, Res.pure_eq]
        refine ⟨_, rfl, rfl, l5, ?_⟩
        rw [List.map_append]
        exact I
      have all : ∃ t' : WPsqSt (Fl F.toRounding), wpsqPush m summed desired t (a, w) = .val t' ∧
            t'.cnt = ps.length + 1 ∧ t'.pos.length = m ∧
            HeightsOk m t'.heights ((ps.filterMap toFl2 ++ [(a, w)]).map Prod.fst) := by
        unfold wpsqPush wpsqStep
        simp only [hcnt, hc, if_false]
        rw [e1, Res.val_bind]
        cases b
        · exact rest t.pos hpos
        · simp only [if_true, setAt_lt (show 0 < t.pos.length by omega), Res.val_bind]
          exact rest _ (by simp [hpos])
      obtain ⟨t', e', c1, c2, c3⟩ := all
      refine ⟨t'.emb ofFl, ?_, t', rfl, by simpa using c1, c2, fun h1 => by simp at h1; omega, by rw [hf]; exact c3⟩
      rw [wpsqPush_emb e hd' t (a, w), e', Res.map_val]

theorem wpsqInit_nan {m : ℕ} (hm : 2 ≤ m) : (wpsqInit m : WPsqSt (Ext F)).NInv m [] := by
  have I := wpsqInit_heights (R := F.toRounding) hm
  refine ⟨wpsqInit m, ?_, rfl, I.pos, by simpa using I.before, by simpa using I.heights⟩
  simp only [wpsqInit, WPsqSt.emb, List.map_replicate]
  rfl

theorem wpsqQuantileDes_emb (hF : ∀ x, F.huge x = false) (p a b : Fl F.toRounding) :
    (.val (wpsqQuantileDes (ofFl p) (ofFl a) (ofFl b)) : Res (List (Ext F)))
      = List.map ofFl <$> .val (wpsqQuantileDes p a b) := by
  have e := emb_ofFl hF
  simp only [wpsqQuantileDes, Res.map_val, List.map_cons, List.map_nil, e.add, e.sub, e.mul, e.one, e.div _ _ two_ne,
    two_ofFl hF]

/-- **C88** The same for `weighted_p_square_quantile` (and `weighted_median`). -/
theorem C88_weighted_quantile (hF : ∀ x, F.huge x = false) (hs : F.toRounding.Shrinks) {p : Ext F} (hp : p.NumOrNaN)
    (hp' : p ≠ nan) (h : List (Op (Ext F × Ext F) Unit)) (hx : WNaNLate 5 (pushes h)) (h5 : 5 ≤ (pushes h).length) :
    ∃ v, (wpsqQuantileSet p).answer h () = .val v ∧ (∃ a ∈ (pushes h).map Prod.fst, a ≤ v) ∧
      ∃ b ∈ (pushes h).map Prod.fst, v ≤ b := by
  obtain ⟨p, rfl⟩ := hp.cases.resolve_left hp'
  obtain ⟨s, e, I⟩ := exec_inv_pre (wpsqQuantileSet (ofFl p)) (fun s xs => s.NInv 5 xs) (WNaNLate 5) WNaNLate.pre
    (fun s xs x hx I => wpsqPush_nan hF hs (by norm_num) le_rfl
      (desired := fun n0 W => .val (wpsqQuantileDes p n0 W))
      (desired' := fun n0 W => .val (wpsqQuantileDes (ofFl p) n0 W)) (fun n0 W => ⟨_, rfl, rfl⟩)
      (wpsqQuantileDes_emb hF p) x hx I)
    (fun s xs q I => by
      obtain ⟨t, rfl, I'⟩ := I
      have hl : 2 < (t.heights.map ofFl : List (Ext F)).length := by rw [List.length_map, I'.2.2.2.len]; norm_num
      refine ⟨_, (t.heights.map ofFl)[2], ?_, t, rfl, I'⟩
      show (getAt (t.heights.map ofFl) 2 >>= _) = _
      rw [getAt_lt hl]
      rfl)
    h (wpsqQuantileSet (ofFl p)).init [] (wpsqInit_nan (by norm_num)) (by simpa using hx)
  rw [List.nil_append] at I
  obtain ⟨t, rfl, -, -, -, I⟩ := I
  rw [filterMap_toFl2 hx.2] at I
  obtain ⟨v, ev, hv⟩ := within_emb hF (i := 2) I (le_filterMap hx.1 (by simpa using h5)) (by norm_num)
  refine ⟨v, ?_, hv⟩
  unfold RMachine.answer
  rw [e, Res.val_bind]
  show (getAt (t.heights.map ofFl) 2 >>= _) >>= _ = _
  rw [ev]
  rfl

theorem wepsqDes_emb (hF : ∀ x, F.huge x = false) (ps : List (Fl F.toRounding)) (a b : Fl F.toRounding) :
    wepsqDes (ps.map ofFl) (ofFl a) (ofFl b) = List.map (ofFl (F := F)) <$> wepsqDes ps a b := by
  have e := emb_ofFl hF
  unfold wepsqDes getBack
  rw [getAt_emb, Res.map_bind', Res.bind_map']
  refine Res.bind_congr fun p0 => ?_
  rw [List.length_map]
  have hm : ∀ is : List ℕ, mapRes (fun i => do
      let x ← getAt (ps.map (ofFl (F := F))) (i - 1)
      let y ← getAt (ps.map ofFl) i
      pure [(ofFl b - ofFl a) * (x + y) / 2 + ofFl a, (ofFl b - ofFl a) * y + ofFl a]) is =
      List.map (List.map ofFl) <$> mapRes (fun i => do
      let x ← getAt ps (i - 1)
      let y ← getAt ps i
      pure [(b - a) * (x + y) / 2 + a, (b - a) * y + a]) is := by
    intro is
    induction is with
    | nil => rfl
    | cons i is ih =>
      unfold mapRes
      rw [ih]
      cases hx : getAt ps (i - 1) with
      | val x =>
        cases hy : getAt ps i with
        | val y =>
          simp only [getAt_emb, hx, hy, Res.map_val, Res.val_bind, Res.pure_eq, Res.map_bind', Res.bind_map']
          refine Res.bind_congr fun bs => ?_
          simp only [List.map_cons, List.map_nil, e.add, e.sub, e.mul, e.div _ _ two_ne, two_ofFl hF]
        | _ => simp only [getAt_emb, hx, hy]; rfl
      | _ => simp only [getAt_emb, hx]; rfl
  by_cases hc : 1 ≤ ps.length
  · simp only [hc, if_true]
    rw [getAt_emb, Res.map_bind', Res.bind_map']
    refine Res.bind_congr fun pl => ?_
    rw [hm, Res.map_bind', Res.bind_map']
    refine Res.bind_congr fun inner => ?_
    simp only [Res.pure_eq, Res.map_val, List.map_append, List.map_cons, List.map_nil, List.map_flatten, e.add, e.sub,
      e.mul, e.one, e.div _ _ two_ne, two_ofFl hF]
  · simp only [hc, if_false]
    rfl

/-- **C88** The same for `weighted_extended_p_square`. -/
theorem C88_weighted_extended (hF : ∀ x, F.huge x = false) (hs : F.toRounding.Shrinks) {ps : List (Ext F)}
    (h0 : ps ≠ []) (hp : ∀ p ∈ ps, p.NumOrNaN ∧ p ≠ nan) (h : List (Op (Ext F × Ext F) Unit))
    (hx : WNaNLate (2 * ps.length + 3) (pushes h)) (hn : 2 * ps.length + 3 ≤ (pushes h).length) :
    ∃ vs, (wepsqSet ps).answer h () = .val vs ∧ vs.length = ps.length ∧ vs.Pairwise (· ≤ ·) ∧
      ∀ v ∈ vs, (∃ a ∈ (pushes h).map Prod.fst, a ≤ v) ∧ ∃ b ∈ (pushes h).map Prod.fst, v ≤ b := by
  obtain ⟨ps, rfl⟩ := exists_map_ofFl hp
  have h0' : ps ≠ [] := by
    rintro rfl
    exact h0 rfl
  rw [List.length_map] at *
  obtain ⟨s, e, I⟩ := exec_inv_pre (wepsqSet (ps.map ofFl)) (fun s xs => s.NInv (2 * ps.length + 3) xs)
    (WNaNLate (2 * ps.length + 3)) WNaNLate.pre
    (fun s xs x hx I => by
      have := wpsqPush_nan hF hs (by omega) le_rfl (wepsqDes_length h0') (wepsqDes_emb hF ps) x hx I
      show ∃ s', wpsqPush (2 * (ps.map ofFl).length + 3) (2 * (ps.map ofFl).length + 3) _ s x = _ ∧ _
      rw [List.length_map]
      exact this)
    (fun s xs q I => by
      obtain ⟨t, rfl, I'⟩ := I
      obtain ⟨vs, ev⟩ := epsqResult_defined (n := ps.length) I'.2.2.2.len
      refine ⟨_, vs.map ofFl, ?_, t, rfl, I'⟩
      show (epsqResult (ps.map ofFl).length (t.heights.map ofFl) >>= _) = _
      rw [List.length_map, epsqResult_emb, ev]
      rfl)
    h (wepsqSet (ps.map ofFl)).init [] (by
      show (wpsqInit (2 * (ps.map ofFl).length + 3)).NInv _ _
      rw [List.length_map]
      exact wpsqInit_nan (by omega)) (by simpa using hx)
  rw [List.nil_append] at I
  obtain ⟨t, rfl, -, -, -, I⟩ := I
  rw [filterMap_toFl2 hx.2] at I
  obtain ⟨vs, ev, hv⟩ := extended_emb hF I (le_filterMap hx.1 (by simpa using hn))
  refine ⟨vs, ?_, hv⟩
  unfold RMachine.answer
  rw [e, Res.val_bind]
  show (epsqResult (ps.map ofFl).length (t.heights.map ofFl) >>= _) >>= _ = _
  rw [List.length_map, ev]
  rfl

end

/-! ## What NaN, infinite and large samples do to the estimate -/

/-- **C88 fails** for the median: NaN samples advance the desired positions but not the markers.  Every number from 1
to 25 once, the later ones each followed by a NaN: the median is 23. -/
theorem C88_nan_drift :
    medianSet.answer (onlyPushes ((List.range 5).map (fun i : ℕ => (fin ((i : ℚ) + 1) : Ex ℚ)) ++
      (List.range 20).flatMap fun i : ℕ => [fin ((i : ℚ) + 6), nan])) () = .val (fin 23) := by
  decide +kernel

/-- **C88 fails** for infinite samples: one `+inf` among eight samples makes the median `+inf`, although seven of them
are between 1 and 7. -/
theorem C88_inf_fails :
    medianSet.answer (onlyPushes [fin 1, fin 2, fin 3, fin 4, fin 5, (pinf : Ex ℚ), fin 6, fin 7]) () = .val pinf := by
  decide +kernel

/-- **C88 fails** for infinite samples: four samples later the heights are no longer ordered and the search among them is
undefined. -/
theorem C88_inf_undefined :
    medianSet.answer (onlyPushes [fin 1, fin 2, fin 3, fin 4, fin 5, (pinf : Ex ℚ), fin 6, fin 7, fin 0, fin 0, fin 0,
      fin 1]) () = .ub := by
  decide +kernel

/-- **C88 fails** with overflow: the largest number is 1000, all samples are finite, the median is infinite. -/
theorem C88_overflow_fails :
    let F := Fmt.upTo (1000 : ℚ) (by norm_num) (by norm_num)
    medianSet.answer (onlyPushes [fin (-900), fin (-900), fin (-900), (fin 900 : Ext F), fin 900, fin 900, fin 900,
      fin 900]) () = .val pinf := by
  decide +kernel

/-! ## The hypotheses can be met -/

/-- `double`s of unlimited range. -/
def doubleFmt : Fmt ℚ where
  toRounding := double
  two := by
    show roundBits 53 2 = 2
    decide +kernel
  huge _ := false
  huge_mono _ _ _ h := h
  huge_zero := rfl
  huge_one := rfl

/-- Seven weighted samples, the last but one NaN. -/
def nanDoubles : List (Ext doubleFmt × Ext doubleFmt) :=
  [(fin 1, fin 1), (fin 7, fin 2), (fin 3, fin 1), (fin 9, fin 1), (fin 2, fin 4), (nan, fin 1), (fin 4, fin 1)]

theorem nanDoubles_late : WNaNLate 5 nanDoubles := by
  have r : ∀ n : ℕ, n ≤ 9 → roundBits 53 (n : ℚ) = n := by
    intro n hn
    interval_cases n <;> decide +kernel
  refine ⟨⟨?_, by decide +kernel⟩, ?_⟩
  · intro x hx
    simp only [nanDoubles, List.map_cons, List.map_nil, List.mem_cons, List.not_mem_nil, or_false] at hx
    rcases hx with rfl | rfl | rfl | rfl | rfl | rfl | rfl
    · exact_mod_cast r 1 (by norm_num)
    · exact_mod_cast r 7 (by norm_num)
    · exact_mod_cast r 3 (by norm_num)
    · exact_mod_cast r 9 (by norm_num)
    · exact_mod_cast r 2 (by norm_num)
    · trivial
    · exact_mod_cast r 4 (by norm_num)
  · intro p hp
    simp only [nanDoubles, List.mem_cons, List.not_mem_nil, or_false] at hp
    rcases hp with rfl | rfl | rfl | rfl | rfl | rfl | rfl <;> refine ⟨?_, by simp⟩
    · exact_mod_cast r 1 (by norm_num)
    · exact_mod_cast r 2 (by norm_num)
    · exact_mod_cast r 1 (by norm_num)
    · exact_mod_cast r 1 (by norm_num)
    · exact_mod_cast r 4 (by norm_num)
    · exact_mod_cast r 1 (by norm_num)
    · exact_mod_cast r 1 (by norm_num)

theorem half_double : Ext.NumOrNaN (fin (1 / 2) : Ext doubleFmt) := by
  show roundBits 53 (1 / 2) = 1 / 2
  decide +kernel

theorem pushes_onlyPushes' {X Q : Type} (xs : List X) : pushes (onlyPushes xs : List (Op X Q)) = xs := by
  induction xs with
  | nil => rfl
  | cons x xs ih => simp only [onlyPushes, List.map_cons, pushes] at ih ⊢; rw [ih]

example : ∃ v, (wpsqQuantileSet (fin (1 / 2))).answer (onlyPushes nanDoubles) () = .val v ∧
    (∃ a ∈ nanDoubles.map Prod.fst, a ≤ v) ∧ ∃ b ∈ nanDoubles.map Prod.fst, v ≤ b := by
  have := C88_weighted_quantile (fun _ => rfl) double_shrinks half_double (by simp) (onlyPushes nanDoubles)
    (by rw [pushes_onlyPushes']; exact nanDoubles_late) (by rw [pushes_onlyPushes']; simp [nanDoubles])
  rwa [pushes_onlyPushes'] at this

example : ∃ vs, (wepsqSet [fin (1 / 2)]).answer (onlyPushes nanDoubles) () = .val vs ∧ vs.length = 1 ∧
    ∀ v ∈ vs, (∃ a ∈ nanDoubles.map Prod.fst, a ≤ v) ∧ ∃ b ∈ nanDoubles.map Prod.fst, v ≤ b := by
  have := C88_weighted_extended (fun _ => rfl) double_shrinks (ps := [fin (1 / 2)]) (by simp)
    (by simpa using half_double) (onlyPushes nanDoubles)
    (by rw [pushes_onlyPushes']; exact nanDoubles_late) (by rw [pushes_onlyPushes']; simp [nanDoubles])
  rw [pushes_onlyPushes'] at this
  obtain ⟨vs, e, l, -, v⟩ := this
  exact ⟨vs, e, l, v⟩

example : ∃ v, (psqQuantileSet (fin (1 / 2))).answer (onlyPushes (nanDoubles.map Prod.fst)) () = .val v ∧
    (∃ a ∈ nanDoubles.map Prod.fst, a ≤ v) ∧ ∃ b ∈ nanDoubles.map Prod.fst, v ≤ b := by
  have := C88_quantile (fun _ => rfl) double_shrinks half_double (by simp) (onlyPushes (nanDoubles.map Prod.fst))
    (by rw [pushes_onlyPushes']; exact nanDoubles_late.1) (by rw [pushes_onlyPushes']; simp [nanDoubles])
  rwa [pushes_onlyPushes'] at this

end Acc
