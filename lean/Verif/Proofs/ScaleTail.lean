import Verif.Proofs.ScalePsq
import Verif.Model.WTail

/-!
# The tail cache under a change of units

Helpers for C100.  A positive factor keeps the order of the samples, so the heap sees the same comparisons; a negative factor
exchanges the two tails.
-/

set_option linter.unusedSectionVars false

namespace Acc

/-! ### The cache, for related samples -/

section
variable {α β : Type} [LT α] [DecidableLT α] [LT β] [DecidableLT β] {V W : Type} {r : α → β → Prop} {q : V → W → Prop}
  {side side' : Side}

/-- The comparisons of the cache come out the same. -/
def PredRel (r : α → β → Prop) (side side' : Side) : Prop :=
  ∀ a b a' b', r a b → r a' b' → tailPred side a a' = tailPred side' b b'

/-- Related states of two tail caches. -/
structure TailRel (r : α → β → Prop) (q : V → W → Prop) (a : TailSt α V) (b : TailSt β W) : Prop where
  isSorted : a.isSorted = b.isSorted
  indices : a.indices = b.indices
  samples : List.Forall₂ r a.samples b.samples
  variates : List.Forall₂ q a.variates b.variates

theorem tailCmp_rel (hp : PredRel r side side') {l : List α} {m : List β} (h : List.Forall₂ r l m) :
    tailCmp side l = tailCmp side' m := by
  funext i j
  unfold tailCmp
  rcases forall₂_getElem? h i with ⟨e, e'⟩ | ⟨x, x', e, e', hx⟩ <;>
    rcases forall₂_getElem? h j with ⟨f, f'⟩ | ⟨y, y', f, f', hy⟩ <;> rw [e, e', f, f']
  exact hp _ _ _ _ hx hy

theorem tailRel_init {x0 : α} {y0 : β} {v0 : V} {w0 : W} (hr : r x0 y0) (hq : q v0 w0) (k : ℕ) :
    TailRel r q (tailInit k x0 v0) (tailInit k y0 w0) :=
  ⟨rfl, rfl, forall₂_replicate hr k, forall₂_replicate hq k⟩

theorem tailRel_assign (H : HeapImpl ℕ) (hp : PredRel r side side') {a : TailSt α V} {b : TailSt β W} (h : TailRel r q a b)
    {x : α} {y : β} (hx : r x y) {v : V} {w : W} (hv : q v w) (i : ℕ) :
    Res.Lift (TailRel r q) (tailAssign H side a x v i) (tailAssign H side' b y w i) := by
  unfold tailAssign
  rw [h.samples.length_eq, h.variates.length_eq]
  by_cases c : i < b.samples.length ∧ i < b.variates.length
  · rw [if_pos c, if_pos c]
    have hs := forall₂_set h.samples i hx
    refine ⟨rfl, ?_, hs, forall₂_set h.variates i hv⟩
    show H.push _ _ = H.push _ _
    rw [tailCmp_rel hp hs, h.indices]
  · rw [if_neg c, if_neg c]
    trivial

theorem tailRel_push (H : HeapImpl ℕ) (hp : PredRel r side side') {a : TailSt α V} {b : TailSt β W} (h : TailRel r q a b)
    {x : α} {y : β} (hx : r x y) {v : V} {w : W} (hv : q v w) :
    Res.Lift (TailRel r q) (tailPush H side a x v) (tailPush H side' b y w) := by
  unfold tailPush
  rw [h.samples.length_eq, h.indices]
  by_cases c : b.indices.length < b.samples.length
  · rw [if_pos c, if_pos c]
    refine tailRel_assign H hp ?_ hx hv _
    exact ⟨h.isSorted, rfl, h.samples, h.variates⟩
  · rw [if_neg c, if_neg c]
    rcases hi : b.indices with _ | ⟨i0, is⟩
    · trivial
    · dsimp only
      rcases forall₂_getElem? h.samples i0 with ⟨e, e'⟩ | ⟨u, u', e, e', h0⟩ <;> rw [e, e']
      · trivial
      · dsimp only
        rw [hp _ _ _ _ hx h0, tailCmp_rel hp h.samples]
        by_cases d : tailPred side' y u' = true
        · rw [if_pos d, if_pos d]
          rcases H.pop (tailCmp side' b.samples) (i0 :: is) |>.getLast? with _ | j
          · trivial
          · refine tailRel_assign H hp ?_ hx hv _
            exact ⟨h.isSorted, rfl, h.samples, h.variates⟩
        · rw [if_neg d, if_neg d]
          exact h

theorem tailRel_sort (H : HeapImpl ℕ) (hp : PredRel r side side') {a : TailSt α V} {b : TailSt β W} (h : TailRel r q a b) :
    TailRel r q (tailSort H side a) (tailSort H side' b) := by
  unfold tailSort
  rw [h.isSorted]
  by_cases c : b.isSorted = true
  · rw [if_pos c, if_pos c]
    exact h
  · rw [if_neg c, if_neg c]
    refine ⟨rfl, ?_, h.samples, h.variates⟩
    show (H.sort _ _).reverse = (H.sort _ _).reverse
    rw [tailCmp_rel hp h.samples, h.indices]

theorem Lift_readSlots {γ δ : Type} {p : γ → δ → Prop} {l : List γ} {m : List δ} (h : List.Forall₂ p l m) (is : List ℕ) :
    Res.Lift (List.Forall₂ p) (readSlots l is) (readSlots m is) := by
  induction is with
  | nil => exact List.Forall₂.nil
  | cons i is ih =>
    unfold readSlots
    rcases forall₂_getElem? h i with ⟨e, e'⟩ | ⟨u, u', e, e', hi⟩ <;> rw [e, e']
    · trivial
    · exact ih.bind fun _ _ k => show Res.Lift _ (.val _) (.val _) from .cons hi k

/-- The same calls, with related samples and related variates. -/
def TailOp (r : α → β → Prop) (q : V → W → Prop) : Op (α × V) Unit → Op (β × W) Unit → Prop
  | .push x, .push y => r x.1 y.1 ∧ q x.2 y.2
  | .query _, .query _ => True
  | _, _ => False

theorem tailRel_exec (H : HeapImpl ℕ) (hp : PredRel r side side') {h : List (Op (α × V) Unit)} {g : List (Op (β × W) Unit)}
    (hh : List.Forall₂ (TailOp r q) h g) {a : TailSt α V} {b : TailSt β W} (hab : TailRel r q a b) :
    Res.Lift (TailRel r q) (tailExec H side a h) (tailExec H side' b g) := by
  induction hh generalizing a b with
  | nil => exact hab
  | @cons o o' _ _ ho _ ih =>
    refine Res.Lift.bind ?_ fun _ _ k => ih k
    cases o <;> cases o'
    · exact tailRel_push H hp hab ho.1 ho.2
    · exact ho.elim
    · exact ho.elim
    · exact tailRel_sort H hp hab

theorem length_pushes_tailOp {h : List (Op (α × V) Unit)} {g : List (Op (β × W) Unit)} (hh : List.Forall₂ (TailOp r q) h g) :
    (pushes h).length = (pushes g).length := by
  induction hh with
  | nil => rfl
  | @cons o o' _ _ ho _ ih => cases o <;> cases o' <;> first | exact ho.elim | simpa [pushes] using ih

theorem map_pushes_tailOp {γ δ : Type} {p : γ → δ → Prop} {f : V → γ} {f' : W → δ} (hf : ∀ v w, q v w → p (f v) (f' w))
    {h : List (Op (α × V) Unit)} {g : List (Op (β × W) Unit)} (hh : List.Forall₂ (TailOp r q) h g) :
    List.Forall₂ p ((pushes h).map fun x => f x.2) ((pushes g).map fun x => f' x.2) := by
  induction hh with
  | nil => exact .nil
  | @cons o o' _ _ ho _ ih =>
    cases o <;> cases o' <;> first | exact ho.elim | skip
    · exact .cons (hf _ _ ho.2) ih
    · exact ih

variable {x0 : α} {y0 : β} {v0 : V} {w0 : W} {h : List (Op (α × V) Unit)} {g : List (Op (β × W) Unit)}

theorem tailRel_run (H : HeapImpl ℕ) (hp : PredRel r side side') (hr : r x0 y0) (hq : q v0 w0) (k : ℕ)
    (hh : List.Forall₂ (TailOp r q) h g) :
    Res.Lift (TailRel r q) (tailRun H side k x0 v0 h) (tailRun H side' k y0 w0 g) :=
  tailRel_exec H hp hh (tailRel_init hr hq k)

theorem rel_tailResult (H : HeapImpl ℕ) (hp : PredRel r side side') {a : TailSt α V} {b : TailSt β W} (h : TailRel r q a b) :
    Res.Lift (List.Forall₂ r) (tailResult H side a) (tailResult H side' b) := by
  have k := tailRel_sort H hp h
  unfold tailResult
  dsimp only
  rw [k.indices]
  exact Lift_readSlots k.samples _

theorem rel_tailVariateResult (H : HeapImpl ℕ) (hp : PredRel r side side') {a : TailSt α V} {b : TailSt β W}
    (h : TailRel r q a b) : Res.Lift (List.Forall₂ q) (tailVariateResult H side a) (tailVariateResult H side' b) := by
  have k := tailRel_sort H hp h
  unfold tailVariateResult
  dsimp only
  rw [k.indices]
  exact Lift_readSlots k.variates _

theorem rel_extractTail (H : HeapImpl ℕ) (hp : PredRel r side side') (hr : r x0 y0) (hq : q v0 w0) (k : ℕ)
    (hh : List.Forall₂ (TailOp r q) h g) :
    Res.Lift (List.Forall₂ r) (extractTail H side k x0 v0 h) (extractTail H side' k y0 w0 g) :=
  (tailRel_run H hp hr hq k hh).bind fun _ _ k => rel_tailResult H hp k

theorem rel_extractTailVariate (H : HeapImpl ℕ) (hp : PredRel r side side') (hr : r x0 y0) (hq : q v0 w0) (k : ℕ)
    (hh : List.Forall₂ (TailOp r q) h g) :
    Res.Lift (List.Forall₂ q) (extractTailVariate H side k x0 v0 h) (extractTailVariate H side' k y0 w0 g) :=
  (tailRel_run H hp hr hq k hh).bind fun _ _ k => rel_tailVariateResult H hp k

end

/-! ### The estimators, with rounding -/

section
variable {K : Type} [Field K] [LinearOrder K] [IsStrictOrderedRing K] {R : Rounding K} {s t u : K}

theorem predRel_pos (hs : 0 < s) (side : Side) : PredRel (Scaled (R := R) s) side side := by
  intro a b a' b' h k
  have h1 : b < b' ↔ a < a' := by rw [← not_le, ← not_le, k.le_iff_pos hs h]
  have h2 : b' < b ↔ a' < a := by rw [← not_le, ← not_le, h.le_iff_pos hs k]
  cases side <;> simp only [tailPred, h1, h2]

/-- The other tail. -/
def Side.other : Side → Side
  | .left => .right
  | .right => .left

theorem predRel_neg (hs : s < 0) (side : Side) : PredRel (Scaled (R := R) s) side side.other := by
  intro a b a' b' h k
  have key : ∀ {a b a' b' : Fl R}, Scaled s a b → Scaled s a' b' → (b' < b ↔ a < a') := by
    intro a b a' b' h k
    show b'.val < b.val ↔ a.val < a'.val
    rw [h, k, mul_lt_mul_left_of_neg hs]
  cases side <;> simp only [tailPred, Side.other, key h k, key k h]

theorem scaled_foldl_add (hs : R.Exact s) {l m : List (Fl R)} (h : List.Forall₂ (Scaled s) l m) {a b : Fl R} (k : Scaled s a b) :
    Scaled s (l.foldl (· + ·) a) (m.foldl (· + ·) b) :=
  foldl_rel (fun _ _ _ _ => Scaled.add hs) h k

theorem scaled_tailQuantileResult (nan : Bool) (n : ℕ) {l m : List (Fl R)} (h : List.Forall₂ (Scaled s) l m) :
    Res.Lift (Scaled s) (tailQuantileResult nan n l) (tailQuantileResult nan n m) := by
  unfold tailQuantileResult
  rw [h.length_eq]
  by_cases c : n < m.length
  · rw [if_pos c, if_pos c]
    by_cases d : n = 0
    · rw [if_pos d, if_pos d]
      trivial
    · rw [if_neg d, if_neg d]
      rcases forall₂_getElem? h (n - 1) with ⟨e, e'⟩ | ⟨u, u', e, e', hi⟩ <;> rw [e, e']
      · trivial
      · exact hi
  · rw [if_neg c, if_neg c]
    cases nan <;> trivial

theorem scaled_nonCoherentTailMeanResult (hs : R.Exact s) (nan : Bool) (n : ℕ) {l m : List (Fl R)}
    (h : List.Forall₂ (Scaled s) l m) :
    Res.Lift (Scaled s) (nonCoherentTailMeanResult nan n l) (nonCoherentTailMeanResult nan n m) := by
  unfold nonCoherentTailMeanResult
  rw [h.length_eq]
  by_cases c : n ≤ m.length
  · rw [if_pos c, if_pos c]
    exact (scaled_foldl_add hs (List.forall₂_take n h) Scaled.zero).fdiv_self hs _
  · rw [if_neg c, if_neg c]
    cases nan <;> trivial

theorem scaled_coherentTailMeanOf (hs : R.Exact s) (side : Side) (cnt n : ℕ) (p : Fl R) {a b a' b' : Res (Fl R)}
    (h : Res.Lift (Scaled s) a b) (k : Res.Lift (Scaled s) a' b') :
    Res.Lift (Scaled s) (coherentTailMeanOf side cnt n p a a') (coherentTailMeanOf side cnt n p b b') := by
  unfold coherentTailMeanOf
  refine h.bind fun _ _ h => k.bind fun _ _ k => (k.fdiv_self hs _).bind fun _ _ k => ?_
  refine (Res.Lift.refl (r := (· = ·)) (fun _ => rfl) _).bind fun _ _ e => ?_
  subst e
  exact show Res.Lift _ (.val _) (.val _) from h.add hs (k.mul_self hs _)

theorem scaled_vecAdd (hs : R.Exact s) {a b : List (Fl R)} (h : List.Forall₂ (Scaled s) a b) {a' b' : List (Fl R)}
    (k : List.Forall₂ (Scaled s) a' b') : Res.Lift (List.Forall₂ (Scaled s)) (vecAdd a a') (vecAdd b b') := by
  induction h generalizing a' b' with
  | nil => exact List.Forall₂.nil
  | cons h _ ih =>
    cases k with
    | nil => trivial
    | cons k k' => exact (ih k').bind fun _ _ i => show Res.Lift _ (.val _) (.val _) from .cons (h.add hs k) i

theorem scaled_vecAccumulate (hs : R.Exact s) {l m : List (List (Fl R))} (h : List.Forall₂ (List.Forall₂ (Scaled s)) l m)
    {a b : List (Fl R)} (k : List.Forall₂ (Scaled s) a b) :
    Res.Lift (List.Forall₂ (Scaled s)) (vecAccumulate a l) (vecAccumulate b m) := by
  induction h generalizing a b with
  | nil => exact k
  | cons h _ ih => exact (scaled_vecAdd hs k h).bind fun _ _ k => ih k

theorem scaled_vecDiv (hs : R.Exact s) (ht : R.Exact t) {f g : Fl R} (hf : Scaled t f g) {a b : List (Fl R)}
    (h : List.Forall₂ (Scaled s) a b) : Res.Lift (List.Forall₂ (Scaled (s / t))) (vecDiv f a) (vecDiv g b) := by
  induction h with
  | nil => exact List.Forall₂.nil
  | cons h _ ih =>
    exact (h.fdiv hs ht hf).bind fun _ _ h => ih.bind fun _ _ i => show Res.Lift _ (.val _) (.val _) from .cons h i

theorem forall₂_zeros (a b : List (Fl R)) (h : a.length = b.length) :
    List.Forall₂ (Scaled s) (List.replicate a.length (0 : Fl R)) (List.replicate b.length 0) := by
  rw [h]
  exact forall₂_replicate Scaled.zero _

theorem scaled_tailVariateMeansOf (hs : R.Exact s) (hu : R.Exact u) (relative nan : Bool) (n : ℕ) {a b : Res (Fl R)}
    (h : Res.Lift (Scaled s) a b) {l m : List (Fl R)} (hl : List.Forall₂ (Scaled s) l m) {v w : List (List (Fl R))}
    (hv : List.Forall₂ (List.Forall₂ (Scaled u)) v w) :
    Res.Lift (List.Forall₂ (Scaled (if relative then u / s else u))) (tailVariateMeansOf relative nan n a l v)
      (tailVariateMeansOf relative nan n b m w) := by
  unfold tailVariateMeansOf
  rw [hl.length_eq]
  cases hv with
  | nil => trivial
  | @cons x y xs ys hx hxs =>
    dsimp only
    by_cases c : n < m.length
    · rw [if_pos c, if_pos c]
      refine (scaled_vecAccumulate hu (List.forall₂_take n (.cons hx hxs)) (forall₂_zeros x y hx.length_eq)).bind
        fun _ _ k => ?_
      cases relative
      · have := scaled_vecDiv hu Rounding.Exact.one (Scaled.self (a := ((n : ℕ) : Fl R))) k
        rw [div_one] at this
        exact this
      · exact h.bind fun _ _ h => scaled_vecDiv hu hs (h.self_mul hs _) k
    · rw [if_neg c, if_neg c]
      cases nan <;> trivial

theorem scaled_wtailLoop (ht : R.Exact t) (h0 : 0 < t) (ex : Res (ℕ × Fl R)) (hex : ∀ v, ex ≠ .val v) {th th' : Fl R}
    (hth : Scaled t th th') (n : ℕ) {a b : Fl R} (hab : Scaled t a b) {l m : List (Fl R)} (h : List.Forall₂ (Scaled t) l m) :
    Res.Lift (fun x y : ℕ × Fl R => x.1 = y.1 ∧ Scaled t x.2 y.2) (wtailLoop ex th n a l) (wtailLoop ex th' n b m) := by
  induction h generalizing n a b with
  | nil =>
    have c : b < th' ↔ a < th := by rw [← not_le, ← not_le, hth.le_iff_pos h0 hab]
    simp only [wtailLoop, c]
    by_cases d : a < th
    · rw [if_pos d, if_pos d]
      cases ex <;> first | trivial | exact absurd rfl (hex _)
    · rw [if_neg d, if_neg d]
      exact ⟨rfl, hab⟩
  | cons h _ ih =>
    have c : b < th' ↔ a < th := by rw [← not_le, ← not_le, hth.le_iff_pos h0 hab]
    simp only [wtailLoop, c]
    by_cases d : a < th
    · rw [if_pos d, if_pos d]
      exact ih _ (hab.add ht h)
    · rw [if_neg d, if_neg d]
      exact ⟨rfl, hab⟩

theorem nanOrThrow_ne_val {β : Type} (nan : Bool) (v : β) : nanOrThrow nan ≠ .val v := by cases nan <;> simp [nanOrThrow]

theorem scaled_wtailQuantileResult (ht : R.Exact t) (h0 : 0 < t) (nan : Bool) {th th' : Fl R} (hth : Scaled t th th')
    {l m : List (Fl R)} (h : List.Forall₂ (Scaled s) l m) {w w' : List (Fl R)} (hw : List.Forall₂ (Scaled t) w w') :
    Res.Lift (Scaled s) (wtailQuantileResult nan th l w) (wtailQuantileResult nan th' m w') := by
  unfold wtailQuantileResult
  refine (scaled_wtailLoop ht h0 _ (nanOrThrow_ne_val nan) hth 0 Scaled.zero hw).bind fun x y k => ?_
  obtain ⟨n, _⟩ := x
  obtain ⟨n', _⟩ := y
  obtain ⟨rfl, -⟩ : n = n' ∧ _ := k
  dsimp only
  by_cases d : n = 0
  · rw [if_pos d, if_pos d]
    trivial
  · rw [if_neg d, if_neg d]
    rcases forall₂_getElem? h (n - 1) with ⟨e, e'⟩ | ⟨u, u', e, e', hi⟩ <;> rw [e, e']
    · trivial
    · exact hi

theorem scaled_innerProduct (hs : R.Exact s) (ht : R.Exact t) (n : ℕ) {l m : List (Fl R)} (h : List.Forall₂ (Scaled s) l m)
    {w w' : List (Fl R)} (hw : List.Forall₂ (Scaled t) w w') {a b : Fl R} (k : Scaled (s * t) a b) :
    Res.Lift (Scaled (s * t)) (innerProduct a n l w) (innerProduct b n m w') := by
  induction n generalizing l m w w' a b with
  | zero => cases h <;> cases hw <;> exact k
  | succ n ih =>
    cases h with
    | nil => cases hw <;> trivial
    | cons h hh =>
      cases hw with
      | nil => trivial
      | cons w ww => exact ih hh ww (k.add (hs.mul ht) (h.mul hs ht w))

theorem scaled_wtailMeanResult (hs : R.Exact s) (ht : R.Exact t) (h0 : 0 < t) (nan : Bool) {th th' : Fl R}
    (hth : Scaled t th th') {l m : List (Fl R)} (h : List.Forall₂ (Scaled s) l m) {w w' : List (Fl R)}
    (hw : List.Forall₂ (Scaled t) w w') :
    Res.Lift (Scaled s) (wtailMeanResult nan th l w) (wtailMeanResult nan th' m w') := by
  unfold wtailMeanResult
  refine (scaled_wtailLoop ht h0 _ (nanOrThrow_ne_val nan) hth 0 Scaled.zero hw).bind fun x y k => ?_
  obtain ⟨n, c⟩ := x
  obtain ⟨n', c'⟩ := y
  obtain ⟨rfl, k⟩ : n = n' ∧ Scaled t c c' := k
  refine (scaled_innerProduct hs ht n h hw Scaled.zero).bind fun _ _ i => ?_
  have := i.fdiv (hs.mul ht) ht k
  rwa [mul_div_cancel_right₀ _ ht.1] at this

theorem scaled_vecInnerProduct (hu : R.Exact u) (ht : R.Exact t) (n : ℕ) {l m : List (List (Fl R))}
    (h : List.Forall₂ (List.Forall₂ (Scaled u)) l m) {w w' : List (Fl R)} (hw : List.Forall₂ (Scaled t) w w')
    {a b : List (Fl R)} (k : List.Forall₂ (Scaled (u * t)) a b) :
    Res.Lift (List.Forall₂ (Scaled (u * t))) (vecInnerProduct a n l w) (vecInnerProduct b n m w') := by
  induction n generalizing l m w w' a b with
  | zero => cases h <;> cases hw <;> exact k
  | succ n ih =>
    cases h with
    | nil => cases hw <;> trivial
    | cons h hh =>
      cases hw with
      | nil => trivial
      | cons w ww =>
        refine (scaled_vecAdd (hu.mul ht) k ?_).bind fun _ _ k => ih hh ww k
        rw [List.forall₂_map_left_iff, List.forall₂_map_right_iff]
        exact h.imp fun _ _ h => h.mul hu ht w

theorem scaled_wtailVariateMeansOf (hs : R.Exact s) (hu : R.Exact u) (ht : R.Exact t) (h0 : 0 < t) (relative nan : Bool)
    {th th' : Fl R} (hth : Scaled t th th') {a b : Res (Fl R)} (h : Res.Lift (Scaled s) a b) {v v' : List (List (Fl R))}
    (hv : List.Forall₂ (List.Forall₂ (Scaled u)) v v') {w w' : List (Fl R)} (hw : List.Forall₂ (Scaled t) w w') :
    Res.Lift (List.Forall₂ (Scaled (if relative then u / s else u))) (wtailVariateMeansOf relative nan th a v w)
      (wtailVariateMeansOf relative nan th' b v' w') := by
  unfold wtailVariateMeansOf
  refine (scaled_wtailLoop ht h0 _ (by cases nan <;> simp) hth 0 Scaled.zero hw).bind fun x y k => ?_
  obtain ⟨n, c⟩ := x
  obtain ⟨n', c'⟩ := y
  obtain ⟨rfl, k⟩ : n = n' ∧ Scaled t c c' := k
  have ht0 := ht.1
  have hs0 := hs.1
  cases hv with
  | nil => trivial
  | @cons x y xs ys hx hxs =>
    dsimp only
    refine (scaled_vecInnerProduct hu ht n (.cons hx hxs) hw (forall₂_zeros x y hx.length_eq)).bind fun _ _ i => ?_
    cases relative
    · have := scaled_vecDiv (hu.mul ht) ht k i
      rwa [mul_div_cancel_right₀ _ ht0] at this
    · refine h.bind fun _ _ h => ?_
      have := scaled_vecDiv (hu.mul ht) (ht.mul hs) (k.mul ht hs h) i
      rwa [show u * t / (t * s) = u / s by field_simp] at this

end

end Acc
