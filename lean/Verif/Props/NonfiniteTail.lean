import Verif.Proofs.TailMap
import Verif.Props.Nonfinite

/-!
# C89: NaN and infinite samples in the tails

The tail cache of `Model/Tail.lean` and its estimators run on numbers with infinities and NaN (`Ext F`).
-/

set_option linter.unusedSectionVars false

namespace Acc

open Ext

section
variable {K : Type} [Field K] [LinearOrder K] [IsStrictOrderedRing K] {F : Fmt K}

/-- A number that is not NaN, as an extended number: `⊥` is `-∞`, `⊤` is `+∞`. -/
def Ext.toOrd : Ext F → Option (WithBot (WithTop K))
  | fin a => some ((a : WithTop K) : WithBot (WithTop K))
  | pinf => some ((⊤ : WithTop K) : WithBot (WithTop K))
  | ninf => some ⊥
  | nan => none

/-- The number of the format. -/
def Ext.ofOrd : WithBot (WithTop K) → Ext F
  | none => ninf
  | some none => pinf
  | some (some a) => fin a

/-- A finite number of samples fits into `size_t`, an infinite or NaN number does not: the conversion is undefined
behaviour, which `tailN` reports for negative numbers. -/
instance [FloorRing K] : Ceil (Ext F) where
  ceilZ
    | fin a => ⌈a⌉
    | _ => -1

/-- The history without the samples that are NaN. -/
def Spec.notNaN {V : Type} (h : List (Op (Ext F × V) Unit)) : List (Op (WithBot (WithTop K) × V) Unit) :=
  h.filterMap fun
    | .push p => p.1.toOrd.map fun x => .push (x, p.2)
    | .query q => some (.query q)

/-- The samples that are not NaN. -/
def Spec.numbers (xs : List (Ext F)) : List (WithBot (WithTop K)) := xs.filterMap toOrd

open Spec

theorem Ext.ofOrd_toOrd {x : Ext F} {y : WithBot (WithTop K)} (h : x.toOrd = some y) : x = ofOrd y := by
  cases x <;> cases h <;> rfl

theorem Ext.toOrd_ofOrd (y : WithBot (WithTop K)) : (ofOrd y : Ext F).toOrd = some y := by
  rcases y with _ | _ | a <;> rfl

theorem Ext.toOrd_eq_none {x : Ext F} : x.toOrd = none ↔ x = nan := by
  cases x <;> simp [toOrd]

theorem Ext.ofOrd_ne_nan (y : WithBot (WithTop K)) : (ofOrd y : Ext F) ≠ nan := by
  rcases y with _ | _ | a <;> nofun

theorem Ext.ofOrd_lt (a b : WithBot (WithTop K)) : (ofOrd a : Ext F) < ofOrd b ↔ a < b := by
  rw [lt_def]
  rcases a with _ | _ | a <;> rcases b with _ | _ | b
  · exact iff_of_false (by simp [ofOrd, lt]) (lt_irrefl _)
  · exact iff_of_true rfl (WithBot.bot_lt_coe _)
  · exact iff_of_true rfl (WithBot.bot_lt_coe _)
  · exact iff_of_false (by simp [ofOrd, lt]) not_lt_bot
  · exact iff_of_false (by simp [ofOrd, lt]) (lt_irrefl _)
  · exact iff_of_false (by simp [ofOrd, lt]) (not_lt_of_ge (WithBot.coe_le_coe.2 le_top))
  · exact iff_of_false (by simp [ofOrd, lt]) not_lt_bot
  · exact iff_of_true rfl (WithBot.coe_lt_coe.2 (WithTop.coe_lt_top a))
  · show decide (a < b) = true ↔ (((a : WithTop K) : WithBot (WithTop K)) < ((b : WithTop K) : WithBot (WithTop K)))
    rw [WithBot.coe_lt_coe, WithTop.coe_lt_coe, decide_eq_true_eq]

theorem tailPred_ofOrd (side : Side) (a b : WithBot (WithTop K)) :
    tailPred side (ofOrd a : Ext F) (ofOrd b) = tailPred side a b := by
  cases side <;> simp [tailPred, ofOrd_lt]

theorem tailPred_nan (side : Side) (a : Ext F) : tailPred side nan a = false ∧ tailPred side a nan = false := by
  cases side <;> simp [tailPred]

theorem pushes_notNaN {V : Type} (h : List (Op (Ext F × V) Unit)) :
    pushes (notNaN h) = (pushes h).filterMap fun p => p.1.toOrd.map fun x => (x, p.2) := by
  induction h with
  | nil => rfl
  | cons o h ih =>
    cases o with
    | query q => exact ih
    | push p =>
      unfold notNaN at ih ⊢
      cases e : p.1.toOrd with
      | none => simpa [pushes, e] using ih
      | some x => simpa [pushes, e] using ih

theorem fst_notNaN {V : Type} (h : List (Op (Ext F × V) Unit)) :
    (pushes (notNaN h)).map Prod.fst = numbers ((pushes h).map Prod.fst) := by
  rw [pushes_notNaN, numbers, List.map_filterMap, List.filterMap_map]
  congr 1
  funext p
  simp only [Option.map_map, Function.comp_def]
  cases p.1.toOrd <;> rfl

/-- The history run on the numbers of the format. -/
theorem tailExec_nan {V : Type} (H : HeapImpl ℕ) (side : Side) {k : ℕ} (hk : 1 ≤ k) (h : List (Op (Ext F × V) Unit)) :
    ∀ {ps : List (WithBot (WithTop K) × V)} {s : TailSt (WithBot (WithTop K)) V} {slots},
    TailSt.Inv side k ps s slots → (∀ p ∈ (pushes h).take (k - ps.length), p.1 ≠ nan) →
    tailExec H side (s.map (ofOrd (F := F)) id) h = TailSt.map ofOrd id <$> tailExec H side s (notNaN h) := by
  induction h with
  | nil => intros; rfl
  | cons o h ih =>
    intro ps s slots hi hl
    cases o with
    | query q =>
      simp only [notNaN, tailExec, tailStep, tailSort_map (tailPred_ofOrd (F := F) side),
        Res.val_bind]
      exact ih (hi.sort H).1 hl
    | push p =>
      cases e : p.1.toOrd with
      | none =>
        have hn := toOrd_eq_none.1 e
        have hlen : k ≤ ps.length := by
          by_contra hc
          obtain ⟨m, hm⟩ : ∃ m, k - ps.length = m + 1 := ⟨k - ps.length - 1, by omega⟩
          rw [hm, pushes, List.take_succ_cons] at hl
          exact hl p (by simp) hn
        have hidx : s.indices.length = k := by rw [hi.length_indices]; omega
        have hsmp : s.samples.length = k := by rw [hi.samples, List.length_map, hi.len]
        have e1 : notNaN (.push p :: h) = notNaN h := by
          unfold notNaN
          rw [List.filterMap_cons_none]
          simp [e]
        have e2 : tailPush H side (s.map (ofOrd (F := F)) id) p.1 p.2 = .val (s.map ofOrd id) := by
          unfold tailPush
          have e3 : (s.map (ofOrd (F := F)) id).indices = s.indices := rfl
          have e4 : (s.map (ofOrd (F := F)) id).samples = s.samples.map ofOrd := rfl
          rw [e3, e4, if_neg (by rw [List.length_map]; omega)]
          cases hc : s.indices with
          | nil => rw [hc] at hidx; simp at hidx; omega
          | cons i is =>
            have hi0 : i < s.samples.length := by
              have := hi.mem_lt (i := i) (by rw [hc]; simp)
              rw [hsmp, ← hi.len]
              exact this
            simp only [List.getElem?_map, List.getElem?_eq_getElem hi0, Option.map_some, hn, (tailPred_nan side _).1]
            rfl
        rw [e1]
        simp only [tailExec, tailStep, e2, Res.val_bind]
        exact ih hi (by rw [Nat.sub_eq_zero_of_le hlen]; simp)
      | some x =>
        have hx := ofOrd_toOrd e
        have e1 : notNaN (.push p :: h) = .push (x, p.2) :: notNaN h := by
          unfold notNaN
          rw [List.filterMap_cons_some]
          simp [e]
        obtain ⟨s1, slots1, h1, h2⟩ := hi.push H hk (x, p.2)
        rw [e1]
        simp only [tailExec, tailStep, h1, Res.val_bind]
        have e2 := tailPush_map (tailPred_ofOrd (F := F) side) id H s x p.2
        rw [← hx] at e2
        rw [show tailPush H side (s.map ofOrd id) p.1 p.2 = tailPush H side (s.map ofOrd id) p.1 (id p.2) from rfl, e2]
        rw [show tailPush H side s x p.2 = .val s1 from h1]
        simp only [Res.map_val, Res.val_bind]
        refine ih h2 fun q hq => hl q ?_
        rw [List.length_append, List.length_singleton] at hq
        by_cases hc : k - ps.length = 0
        · rw [show k - (ps.length + 1) = 0 by omega] at hq
          simp at hq
        · obtain ⟨m, hm⟩ : ∃ m, k - ps.length = m + 1 := ⟨k - ps.length - 1, by omega⟩
          rw [hm, pushes, List.take_succ_cons]
          rw [show k - (ps.length + 1) = m by omega] at hq
          exact List.mem_cons_of_mem _ hq

/-- The cache after a history in which the first `k` samples are not NaN. -/
theorem tailRun_nan {V : Type} (H : HeapImpl ℕ) (side : Side) {k : ℕ} (hk : 1 ≤ k) {x0 : Ext F} {y0}
    (h0 : x0.toOrd = some y0) (v0 : V) (h : List (Op (Ext F × V) Unit)) (hl : ∀ p ∈ (pushes h).take k, p.1 ≠ nan) :
    tailRun H side k x0 v0 h = TailSt.map ofOrd id <$> tailRun H side k y0 v0 (notNaN h) := by
  unfold tailRun
  rw [← tailExec_nan H side hk h (tailInit_inv side k y0 v0) (by simpa using hl)]
  congr 1
  rw [ofOrd_toOrd h0]
  simp [tailInit, TailSt.map]

/-- **C89** If the first `k` samples (the size of the cache) are not NaN, the tail is the list of the `k` most extreme
samples of the stream among those that are not NaN, infinite ones included, most extreme first. -/
theorem C89_tail {V : Type} (H : HeapImpl ℕ) (side : Side) {k : ℕ} (hk : 1 ≤ k) {x0 : Ext F} (h0 : x0 ≠ nan) (v0 : V)
    (h : List (Op (Ext F × V) Unit)) (hl : ∀ p ∈ (pushes h).take k, p.1 ≠ nan) :
    extractTail H side k x0 v0 h = .val ((extremes side k (numbers ((pushes h).map Prod.fst))).map ofOrd) := by
  obtain ⟨y0, e⟩ : ∃ y0, x0.toOrd = some y0 := Option.ne_none_iff_exists'.1 fun c => h0 (toOrd_eq_none.1 c)
  have := C15_tail H side hk y0 v0 (notNaN h)
  rw [fst_notNaN] at this
  unfold extractTail at this ⊢
  rw [tailRun_nan H side hk e v0 h hl]
  cases hr : tailRun H side k y0 v0 (notNaN h) with
  | val s =>
    rw [hr, Res.val_bind] at this
    rw [Res.map_val, Res.val_bind, tailResult_map (tailPred_ofOrd side), this]
    rfl
  | _ => rw [hr] at this; cases this


/-- The extracts after a history in which the first `k` samples are not NaN (helper). -/
theorem extract_nan {V : Type} (H : HeapImpl ℕ) (side : Side) {k : ℕ} (hk : 1 ≤ k) {x0 : Ext F} (h0 : x0 ≠ nan) (v0 : V)
    (h : List (Op (Ext F × V) Unit)) (hl : ∀ p ∈ (pushes h).take k, p.1 ≠ nan) :
    ∃ s, tailRun H side k x0 v0 h = .val s ∧
      tailResult H side s = .val ((extremes side k (numbers ((pushes h).map Prod.fst))).map ofOrd) := by
  have e := C89_tail H side hk h0 v0 h hl
  unfold extractTail at e
  cases hr : tailRun H side k x0 v0 h with
  | val s => exact ⟨s, rfl, by rwa [hr, Res.val_bind] at e⟩
  | _ => rw [hr] at e; cases e

/-- **C89** The variates and weights stay attached to the samples; a NaN never enters the cache. -/
theorem C89_variates {V : Type} (H : HeapImpl ℕ) (side : Side) {k : ℕ} (hk : 1 ≤ k) {x0 : Ext F} (h0 : x0 ≠ nan) (v0 : V)
    (h : List (Op (Ext F × V) Unit)) (hl : ∀ p ∈ (pushes h).take k, p.1 ≠ nan) :
    ∃ t v, extractTail H side k x0 v0 h = .val t ∧ extractTailVariate H side k x0 v0 h = .val v ∧
      t.length = v.length ∧ (t.zip v).Subperm (pushes h) ∧ nan ∉ t := by
  obtain ⟨y0, e⟩ : ∃ y0, x0.toOrd = some y0 := Option.ne_none_iff_exists'.1 fun c => h0 (toOrd_eq_none.1 c)
  obtain ⟨t, v, h1, h2, h3, h4⟩ := C17_aligned H side hk y0 v0 (notNaN h)
  refine ⟨t.map ofOrd, v, ?_, ?_, by simpa using h3, ?_, ?_⟩
  · unfold extractTail at h1 ⊢
    rw [tailRun_nan H side hk e v0 h hl]
    cases hr : tailRun H side k y0 v0 (notNaN h) with
    | val s =>
      rw [hr, Res.val_bind] at h1
      rw [Res.map_val, Res.val_bind, tailResult_map (tailPred_ofOrd side), h1]
      rfl
    | _ => rw [hr] at h1; cases h1
  · unfold extractTailVariate at h2 ⊢
    rw [tailRun_nan H side hk e v0 h hl]
    cases hr : tailRun H side k y0 v0 (notNaN h) with
    | val s =>
      rw [hr, Res.val_bind] at h2
      rw [Res.map_val, Res.val_bind, tailVariateResult_map (tailPred_ofOrd side), h2, Res.map_val, List.map_id]
    | _ => rw [hr] at h2; cases h2
  · have e1 : (t.map (ofOrd (F := F))).zip v = (t.zip v).map fun p => (ofOrd p.1, p.2) := by
      rw [List.zip_map_left]
      rfl
    rw [e1]
    obtain ⟨l', hl', hs⟩ := h4
    refine List.Subperm.trans ⟨_, hl'.map _, hs.map _⟩ (List.Sublist.subperm ?_)
    rw [pushes_notNaN]
    generalize pushes h = l
    induction l with
    | nil => simp
    | cons p l ih =>
      cases hp : p.1.toOrd with
      | none =>
        rw [List.filterMap_cons_none (by simp [hp])]
        exact ih.cons p
      | some x =>
        rw [List.filterMap_cons_some (by simp [hp]; rfl), List.map_cons]
        have : ((ofOrd x : Ext F), p.2) = p := by rw [← ofOrd_toOrd hp]
        simp only [this]
        exact ih.cons_cons p
  · intro hc
    obtain ⟨y, _, hy⟩ := List.mem_map.1 hc
    exact ofOrd_ne_nan y hy

section
variable [FloorRing K]

/-- **C89** The tail quantile is the `n`-th most extreme of the samples that are not NaN, where `n` is computed from the
number of *all* samples: NaN samples count as the least extreme ones of either tail. -/
theorem C89_quantile {V : Type} (H : HeapImpl ℕ) (side : Side) (hasNaN : Bool) {k : ℕ} (hk : 1 ≤ k) {x0 : Ext F}
    (h0 : x0 ≠ nan) (v0 : V) (h : List (Op (Ext F × V) Unit)) (hl : ∀ p ∈ (pushes h).take k, p.1 ≠ nan)
    {p : Ext F} {n : ℕ} (hn : tailN side (pushes h).length p = .val n) (h1 : 1 ≤ n)
    (h2 : n < min k (numbers ((pushes h).map Prod.fst)).length) :
    ∃ x, tailQuantile H side hasNaN k x0 v0 h p = .val (ofOrd x) ∧
      (byExtremity side (numbers ((pushes h).map Prod.fst)))[n - 1]? = some x := by
  obtain ⟨s, hs, ht⟩ := extract_nan H side hk h0 v0 h hl
  set xs := numbers ((pushes h).map Prod.fst)
  have hlen : (extremes side k xs).length = min k xs.length := (C15_extremes side k xs).1
  have hlt : n - 1 < (extremes side k xs).length := by omega
  refine ⟨(extremes side k xs)[n - 1], ?_, ?_⟩
  · simp only [tailQuantile, hs, hn, ht, Res.val_bind, tailQuantileResult, List.length_map]
    rw [if_pos (by omega), if_neg (by omega), List.getElem?_map, List.getElem?_eq_getElem hlt]
    rfl
  · rw [← List.getElem?_eq_getElem hlt, extremes, List.getElem?_take_of_lt (by omega)]

/-- **C89** The non-coherent tail mean in exact arithmetic with infinities: the mean of the `n` most extreme samples
that are not NaN, NaN if both infinities are among them. -/
theorem C89_tail_mean {V : Type} (H : HeapImpl ℕ) (side : Side) (hasNaN : Bool) {k : ℕ} (hk : 1 ≤ k) {x0 : Ex K}
    (h0 : x0 ≠ nan) (v0 : V) (h : List (Op (Ex K × V) Unit)) (hl : ∀ p ∈ (pushes h).take k, p.1 ≠ nan)
    {p : Ex K} {n : ℕ} (hn : tailN side (pushes h).length p = .val n) (h1 : 1 ≤ n)
    (h2 : n ≤ min k (numbers ((pushes h).map Prod.fst)).length) :
    nonCoherentTailMean H side hasNaN k x0 v0 h p
      = .val (extMean ((extremes side n (numbers ((pushes h).map Prod.fst))).map ofOrd)) := by
  obtain ⟨s, hs, ht⟩ := extract_nan H side hk h0 v0 h hl
  set xs := numbers ((pushes h).map Prod.fst)
  have hlen : (extremes side k xs).length = min k xs.length := (C15_extremes side k xs).1
  have hlen' : (extremes side n xs).length = min n xs.length := (C15_extremes side n xs).1
  simp only [nonCoherentTailMean, hs, hn, ht, Res.val_bind, nonCoherentTailMeanResult, List.length_map]
  rw [if_pos (by omega), ← List.map_take, extremes, List.take_take, min_eq_left (by omega)]
  change fdiv (sumRun id (0 : Ex K) ((extremes side n xs).map ofOrd)) (n : Ex K) = _
  have hne : (extremes side n xs).map (ofOrd (F := Fmt.exact K)) ≠ [] := by
    rw [← List.length_pos_iff_ne_nil, List.length_map]
    omega
  have e := extMean_div _ hne
  rw [List.length_map, hlen', min_eq_left (by omega)] at e
  rw [extSum_run, fdiv, if_neg (natCast_ne (by omega)), e]

/-- The rank in exact arithmetic. -/
theorem tailN_ex {side : Side} {cnt n : ℕ} {p : K} (hn : Spec.tailCount side cnt p = n) :
    tailN side cnt (fin p : Ex K) = .val n := by
  unfold tailN
  have e : ceilZ ((cnt : Ex K) * tailLevel side (fin p : Ex K)) = (n : ℤ) := by
    rw [← hn]
    cases side <;> rfl
  simp only [e]
  rw [if_neg (by omega), Int.toNat_natCast]

end


/-! ## NaN while the cache is filled -/

theorem Ext.lt_irrefl' (a : Ext F) : ¬ a < a := by
  rw [lt_def]
  cases a <;> simp [lt]

theorem strictWeak_flat {side : Side} {l : List (Ext F)} (h : ∀ a ∈ l, ∀ b ∈ l, tailPred side a b = false) :
    StrictWeak (tailCmp side l) where
  asymm i j hc := by
    unfold tailCmp at *
    cases hi : l[i]? <;> cases hj : l[j]? <;> simp [hi, hj] at hc ⊢
    exact h _ (List.mem_of_getElem? hj) _ (List.mem_of_getElem? hi)
  negTrans i j m h1 h2 := by
    unfold tailCmp at *
    cases hi : l[i]? <;> cases hj : l[j]? <;> cases hm : l[m]? <;> simp [hi, hj, hm] at h1 h2 ⊢
    exact h _ (List.mem_of_getElem? hi) _ (List.mem_of_getElem? hm)

theorem isHeap_flat {side : Side} {l : List (Ext F)} (h : ∀ a ∈ l, ∀ b ∈ l, tailPred side a b = false) {is : List ℕ}
    (hi : ∀ i ∈ is, i < l.length) : IsHeap (tailCmp side l) is := by
  intro i _ hl
  unfold tailCmp
  have h1 := hi _ (List.getElem_mem (l := is) (n := (i - 1) / 2) (by omega))
  have h2 := hi _ (List.getElem_mem hl)
  rw [List.getElem?_eq_getElem h1, List.getElem?_eq_getElem h2]
  exact h _ (List.getElem_mem _) _ (List.getElem_mem _)

/-- The cache after `m` NaN samples. -/
structure Frozen {V : Type} (x0 : Ext F) (k m : ℕ) (s : TailSt (Ext F) V) : Prop where
  le : m ≤ k
  samples : s.samples = List.replicate m nan ++ List.replicate (k - m) x0
  variates : s.variates.length = k
  perm : s.indices.Perm (List.range m)

namespace Frozen
variable {V : Type} {x0 : Ext F} {k m : ℕ} {s : TailSt (Ext F) V}

theorem flat (side : Side) (x0 : Ext F) (i j : ℕ) :
    ∀ a ∈ List.replicate i nan ++ List.replicate j x0, ∀ b ∈ List.replicate i nan ++ List.replicate j x0,
      tailPred side a b = false := by
  intro a ha b hb
  rw [List.mem_append, List.mem_replicate, List.mem_replicate] at ha hb
  rcases ha with ⟨_, rfl⟩ | ⟨_, rfl⟩
  · exact (tailPred_nan side b).1
  · rcases hb with ⟨_, rfl⟩ | ⟨_, rfl⟩
    · exact (tailPred_nan side _).2
    · cases side <;> simp [tailPred, lt_irrefl']

theorem length (h : Frozen x0 k m s) : s.samples.length = k := by
  have := h.le
  rw [h.samples]
  simp
  omega

theorem lt (h : Frozen x0 k m s) : ∀ i ∈ s.indices, i < m := fun i hi => by simpa using h.perm.mem_iff.1 hi

theorem sort (H : HeapImpl ℕ) (side : Side) (h : Frozen x0 k m s) : Frozen x0 k m (tailSort H side s) := by
  unfold tailSort
  split
  · exact h
  · have hl := h.le
    have hf := flat side x0 m (k - m)
    rw [← h.samples] at hf
    exact { h with
      perm := (List.reverse_perm _).trans ((H.sort_perm _ _ (strictWeak_flat hf) (isHeap_flat hf fun i hi => by
        have := h.lt i hi
        rw [h.length]
        omega)).trans h.perm) }

theorem fill (H : HeapImpl ℕ) (side : Side) (h : Frozen x0 k m s) (hm : m < k) (v : V) :
    ∃ s', tailPush H side s nan v = .val s' ∧ Frozen x0 k (m + 1) s' := by
  have hi : s.indices.length = m := by rw [h.perm.length_eq, List.length_range]
  have hset : s.samples.set m nan = List.replicate (m + 1) nan ++ List.replicate (k - (m + 1)) x0 := by
    rw [h.samples, List.set_append_right _ _ (by simp), List.length_replicate, Nat.sub_self,
      show k - m = (k - (m + 1)) + 1 by omega, List.replicate_succ, List.set_cons_zero, List.replicate_succ',
      List.append_assoc]
    rfl
  have hf := flat side x0 (m + 1) (k - (m + 1))
  rw [← hset] at hf
  have hp := H.push_perm (tailCmp side (s.samples.set m nan)) s.indices m (strictWeak_flat hf)
    (isHeap_flat hf fun i hi => by
      have := h.lt i hi
      rw [List.length_set, h.length]
      omega)
  unfold tailPush
  rw [if_pos (by rw [hi, h.length]; exact hm), hi]
  unfold tailAssign
  rw [if_pos ⟨by rw [h.length]; exact hm, by rw [h.variates]; exact hm⟩]
  refine ⟨_, rfl, hm, hset, by simp [h.variates], hp.trans ?_⟩
  rw [List.range_succ]
  exact h.perm.append_right [m]

theorem full (H : HeapImpl ℕ) (side : Side) (h : Frozen x0 k k s) (hk : 1 ≤ k) (x : Ext F) (v : V) :
    tailPush H side s x v = .val s := by
  have hi : s.indices.length = k := by rw [h.perm.length_eq, List.length_range]
  unfold tailPush
  rw [if_neg (by rw [hi, h.length]; omega)]
  cases hc : s.indices with
  | nil => rw [hc] at hi; simp at hi; omega
  | cons i is =>
    have h1 := h.lt i (by rw [hc]; simp)
    have h2 : s.samples[i]? = some nan := by
      rw [h.samples, List.getElem?_append_left (by simpa using h1), List.getElem?_replicate, if_pos h1]
    simp only [h2, (tailPred_nan side x).2]
    rfl

theorem exec (H : HeapImpl ℕ) (side : Side) (hk : 1 ≤ k) (hist : List (Op (Ext F × V) Unit)) :
    ∀ {m s}, Frozen x0 k m s → (∀ p ∈ (pushes hist).take (k - m), p.1 = nan) →
      ∃ s', tailExec H side s hist = .val s' ∧ Frozen x0 k (min k (m + (pushes hist).length)) s' := by
  induction hist with
  | nil =>
    intro m s h _
    exact ⟨s, rfl, by simpa [pushes, min_eq_right h.le] using h⟩
  | cons o hist ih =>
    intro m s h hl
    cases o with
    | query q =>
      obtain ⟨s', e, hs⟩ := ih (h.sort H side) hl
      exact ⟨s', by simp only [tailExec, tailStep, Res.val_bind, e], hs⟩
    | push p =>
      have hle := h.le
      by_cases hm : m < k
      · obtain ⟨j, hj⟩ : ∃ j, k - m = j + 1 := ⟨k - m - 1, by omega⟩
        rw [hj, pushes, List.take_succ_cons] at hl
        have hp := hl p (by simp)
        obtain ⟨s1, e1, h1⟩ := h.fill H side hm p.2
        obtain ⟨s', e, hs⟩ := ih h1 (by
          intro q hq
          rw [show k - (m + 1) = j by omega] at hq
          exact hl q (by simp [hq]))
        refine ⟨s', ?_, ?_⟩
        · simp only [tailExec, tailStep, hp, e1, Res.val_bind, e]
        · rw [pushes, List.length_cons, show m + ((pushes hist).length + 1) = m + 1 + (pushes hist).length by omega]
          exact hs
      · obtain rfl : m = k := by omega
        obtain ⟨s', e, hs⟩ := ih h (by simp)
        refine ⟨s', by simp only [tailExec, tailStep, h.full H side hk, Res.val_bind, e], ?_⟩
        rw [min_eq_left (by omega)] at hs ⊢
        exact hs

end Frozen

/-- **C89 fails** for NaN while the cache is filled: if the first `k` samples are NaN, the tail is `k` times NaN for ever,
whatever comes after. -/
theorem C89_nan_frozen {V : Type} (H : HeapImpl ℕ) (side : Side) {k : ℕ} (hk : 1 ≤ k) (x0 : Ext F) (v0 : V)
    (h : List (Op (Ext F × V) Unit)) (hl : ∀ p ∈ (pushes h).take k, p.1 = nan) :
    extractTail H side k x0 v0 h = .val (List.replicate (min k (pushes h).length) nan) := by
  obtain ⟨s, e, hs⟩ := Frozen.exec (x0 := x0) H side hk h (m := 0) (s := tailInit k x0 v0)
    ⟨by omega, by simp [tailInit], by simp [tailInit], by simp [tailInit]⟩ (by simpa using hl)
  rw [Nat.zero_add] at hs
  simp only [extractTail, tailRun, e, Res.val_bind, tailResult]
  set m := min k (pushes h).length
  have hs' := hs.sort H side
  have hle := hs'.le
  have hlt : ∀ i ∈ (tailSort H side s).indices.reverse, i < m := fun i hi => hs'.lt i (List.mem_reverse.1 hi)
  rw [readSlots_eq _ _ (fun i hi => by rw [hs'.length]; exact lt_of_lt_of_le (hlt i hi) hle)]
  have e2 : (tailSort H side s).indices.reverse.filterMap (fun i => (tailSort H side s).samples[i]?)
      = (tailSort H side s).indices.reverse.filterMap (fun i => some nan) := by
    refine List.filterMap_congr fun i hi => ?_
    rw [hs'.samples, List.getElem?_append_left (by simpa using hlt i hi), List.getElem?_replicate, if_pos (hlt i hi)]
  rw [e2]
  congr 1
  rw [List.eq_replicate_iff]
  constructor
  · rw [show (fun _ : ℕ => some (nan : Ext F)) = some ∘ fun _ => nan from rfl, List.filterMap_eq_map, List.length_map,
      List.length_reverse, hs'.perm.length_eq, List.length_range]
  · intro b hb
    obtain ⟨_, _, hb⟩ := List.mem_filterMap.1 hb
    exact (Option.some.inj hb).symm

/-- **C89 fails** for NaN while the cache is filled: as soon as the cache holds a NaN and two different numbers, the
comparison handed to `std::push_heap`, `std::pop_heap` and `std::sort_heap` is not a strict weak order on the cached
samples, which is undefined behaviour. -/
theorem C89_nan_undefined (side : Side) {samples : List (Ext F)} (hn : nan ∈ samples) {a b : Ext F} (ha : a ∈ samples)
    (hb : b ∈ samples) (hab : a < b) :
    ∃ i < samples.length, ∃ j < samples.length, ∃ l < samples.length,
      tailCmp side samples i j = false ∧ tailCmp side samples j l = false ∧ tailCmp side samples i l = true := by
  obtain ⟨j, hj, ej⟩ := List.getElem_of_mem hn
  obtain ⟨i, hi, ei⟩ := List.getElem_of_mem ha
  obtain ⟨l, hl, el⟩ := List.getElem_of_mem hb
  cases side with
  | left =>
    refine ⟨i, hi, j, hj, l, hl, ?_⟩
    simp [tailCmp, hi, hj, hl, ei, ej, el, tailPred, hab]
  | right =>
    refine ⟨l, hl, j, hj, i, hi, ?_⟩
    simp [tailCmp, hi, hj, hl, ei, ej, el, tailPred, hab]

end

/-! ## Examples -/

/-- Seven samples, two of them NaN. -/
def nanTail : List (Op (Ex ℚ × Unit) Unit) :=
  ([fin 1, fin 2, fin 3, fin 4, fin 5, nan, nan].map fun x => Op.push (x, ()))

/-- **C89** The tail quantiles of both sides disagree when NaN samples are counted: the median of 1, 2, 3, 4, 5 and two
NaN is 4 from the left and 2 from the right. -/
theorem C89_sides_disagree (H : HeapImpl ℕ) :
    tailQuantile H .left true 5 (0 : Ex ℚ) () nanTail (fin (1 / 2)) = .val (fin 4) ∧
    tailQuantile H .right true 5 (0 : Ex ℚ) () nanTail (fin (1 / 2)) = .val (fin 2) := by
  constructor
  · obtain ⟨x, h1, h2⟩ := C89_quantile H .left true (k := 5) (by norm_num) (x0 := (0 : Ex ℚ)) nofun () nanTail
      (by decide) (tailN_ex (p := (1 / 2 : ℚ)) (n := 4) (by decide +kernel)) (by norm_num) (by decide)
    rw [h1]
    have : (Spec.byExtremity Side.left (Spec.numbers ((pushes nanTail).map Prod.fst)))[4 - 1]?
        = some (((4 : ℚ) : WithTop ℚ) : WithBot (WithTop ℚ)) := by decide +kernel
    rw [this] at h2
    cases h2
    rfl
  · obtain ⟨x, h1, h2⟩ := C89_quantile H .right true (k := 5) (by norm_num) (x0 := (0 : Ex ℚ)) nofun () nanTail
      (by decide) (tailN_ex (p := (1 / 2 : ℚ)) (n := 4) (by decide +kernel)) (by norm_num) (by decide)
    rw [h1]
    have : (Spec.byExtremity Side.right (Spec.numbers ((pushes nanTail).map Prod.fst)))[4 - 1]?
        = some (((2 : ℚ) : WithTop ℚ) : WithBot (WithTop ℚ)) := by decide +kernel
    rw [this] at h2
    cases h2
    rfl

/-- The hypotheses hold for a stream with infinities of both signs and a NaN. -/
example (H : HeapImpl ℕ) : extractTail H .right 2 (0 : Ex ℚ) ()
    ([fin 1, ninf, nan, pinf, fin 7, nan].map fun x => Op.push (x, ())) = .val [pinf, fin 7] :=
  (C89_tail H .right (by norm_num) (x0 := (0 : Ex ℚ)) nofun () _ (by decide)).trans (by decide +kernel)

example (H : HeapImpl ℕ) : nonCoherentTailMean H .right true 3 (0 : Ex ℚ) ()
    ([fin 1, ninf, fin 3, pinf, fin 7, nan].map fun x => Op.push (x, ())) (fin (1 / 2)) = .val pinf :=
  (C89_tail_mean H .right true (by norm_num) (x0 := (0 : Ex ℚ)) nofun () _ (by decide)
    (tailN_ex (p := (1 / 2 : ℚ)) (n := 3) (by decide +kernel)) (by norm_num) (by decide)).trans (by decide +kernel)

example (H : HeapImpl ℕ) : extractTail H .left 2 (0 : Ex ℚ) ()
    ([nan, nan, fin 3, ninf].map fun x => Op.push (x, ())) = .val [nan, nan] :=
  C89_nan_frozen H .left (by norm_num) 0 () _ (by decide)

end Acc
