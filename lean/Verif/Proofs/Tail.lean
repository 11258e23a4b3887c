import Verif.Model.Tail
import Mathlib.Data.List.Perm.Basic
import Mathlib.Tactic.Linarith
import Mathlib.Tactic.Order

set_option linter.unusedSectionVars false

namespace Acc

section
variable {α : Type} [LinearOrder α] {V : Type}

theorem tailPred_asymm {side : Side} {a b : α} (h : tailPred side a b = true) :
    tailPred side b a = false := by
  cases side <;> simp [tailPred] at * <;> exact h.le

theorem tailPred_negTrans {side : Side} {a b c : α} (h1 : tailPred side a b = false)
    (h2 : tailPred side b c = false) : tailPred side a c = false := by
  cases side <;> simp [tailPred] at * <;> order

theorem tailPred_trans {side : Side} {a b c : α} (h1 : tailPred side a b = true)
    (h2 : tailPred side b c = true) : tailPred side a c = true := by
  cases side <;> simp [tailPred] at * <;> order

theorem tailPred_false_iff {side : Side} {a b : α} :
    tailPred side a b = false ↔ Spec.geExt side b a := by
  cases side <;> simp [tailPred, Spec.geExt]

theorem tailPred_true_iff {side : Side} {a b : α} :
    tailPred side a b = true ↔ Spec.gtExt side a b := by
  cases side <;> simp [tailPred, Spec.gtExt]

theorem tailCmp_strictWeak (side : Side) (samples : List α) :
    StrictWeak (tailCmp side samples) where
  asymm i j h := by
    unfold tailCmp at *
    generalize samples[i]? = a at *
    generalize samples[j]? = b at *
    rcases a with _ | a <;> rcases b with _ | b <;> simp_all
    exact tailPred_asymm h
  negTrans i j l h1 h2 := by
    unfold tailCmp at *
    generalize samples[i]? = a at *
    generalize samples[j]? = b at *
    generalize samples[l]? = c at *
    rcases a with _ | a <;> rcases b with _ | b <;> rcases c with _ | c <;> simp_all
    exact tailPred_negTrans h1 h2

theorem IsHeap.congr {ι : Type} {c c' : ι → ι → Bool} {l : List ι}
    (h : ∀ a ∈ l, ∀ b ∈ l, c a b = c' a b) (hl : IsHeap c l) : IsHeap c' l := by
  intro i hi hlt
  rw [← h _ (List.getElem_mem _) _ (List.getElem_mem _)]
  exact hl i hi hlt

/-- The state of the cache after pushing `ps` (in this order), whatever was queried. -/
structure TailSt.Inv (side : Side) (k : ℕ) (ps : List (α × V)) (s : TailSt α V)
    (slots : List (α × V)) : Prop where
  samples : s.samples = slots.map Prod.fst
  variates : s.variates = slots.map Prod.snd
  len : slots.length = k
  perm : s.indices.Perm (List.range (min ps.length k))
  heap : IsHeap (tailCmp side s.samples) s.indices
  sorted : s.isSorted = true →
    s.indices.Pairwise (fun i j => tailCmp side s.samples i j = false)
  cached : ∃ D, (s.indices.filterMap (fun i => slots[i]?) ++ D).Perm ps ∧
    ∀ d ∈ D, ∀ c ∈ s.indices.filterMap (fun i => slots[i]?), tailPred side d.1 c.1 = false

theorem tailInit_inv (side : Side) (k : ℕ) (x0 : α) (v0 : V) :
    TailSt.Inv side k [] (tailInit k x0 v0) (List.replicate k (x0, v0)) where
  samples := by simp [tailInit]
  variates := by simp [tailInit]
  len := by simp
  perm := by simp [tailInit]
  heap := by intro i hi h; simp [tailInit] at h
  sorted := by simp [tailInit]
  cached := ⟨[], by simp [tailInit]⟩

namespace TailSt.Inv

variable {side : Side} {k : ℕ} {ps : List (α × V)} {s : TailSt α V} {slots : List (α × V)}

theorem mem_lt (h : Inv side k ps s slots) {i : ℕ} (hi : i ∈ s.indices) : i < slots.length := by
  have := h.perm.mem_iff.mp hi
  rw [List.mem_range] at this
  rw [h.len]; omega

theorem nodup (h : Inv side k ps s slots) : s.indices.Nodup :=
  h.perm.nodup_iff.mpr List.nodup_range

theorem length_indices (h : Inv side k ps s slots) : s.indices.length = min ps.length k := by
  simpa using h.perm.length_eq

theorem filterMap_length {slots : List (α × V)} {l : List ℕ} (h : ∀ i ∈ l, i < slots.length) :
    (l.filterMap (fun i => slots[i]?)).length = l.length := by
  induction l with
  | nil => rfl
  | cons i l ih =>
    have hi := h i (by simp)
    rw [List.filterMap_cons, List.getElem?_eq_getElem hi]
    simp [ih (fun j hj => h j (by simp [hj]))]

theorem filterMap_set {slots : List (α × V)} {l : List ℕ} {i : ℕ} {p : α × V} (hi : i ∉ l) :
    l.filterMap (fun j => (slots.set i p)[j]?) = l.filterMap (fun j => slots[j]?) := by
  apply List.filterMap_congr
  intro j hj
  rw [List.getElem?_set_ne]
  rintro rfl
  exact hi hj

theorem cmp_set {samples : List α} {l : List ℕ} {i : ℕ} {x : α} (hi : i ∉ l) :
    ∀ a ∈ l, ∀ b ∈ l, tailCmp side samples a b = tailCmp side (samples.set i x) a b := by
  intro a ha b hb
  unfold tailCmp
  rw [List.getElem?_set_ne, List.getElem?_set_ne]
  · rintro rfl; exact hi hb
  · rintro rfl; exact hi ha

/-- One `assign` step: slot `i` (the last of the index vector) is overwritten. -/
theorem assign {H : HeapImpl ℕ} {l : List ℕ} {i : ℕ} {p : α × V} {ps' : List (α × V)}
    (hs : s.samples = slots.map Prod.fst) (hv : s.variates = slots.map Prod.snd)
    (hlen : slots.length = k) (hi : i < k) (hnot : i ∉ l)
    (hperm : (l ++ [i]).Perm (List.range (min ps'.length k)))
    (hheap : IsHeap (tailCmp side s.samples) l)
    (hidx : s.indices = l ++ [i])
    (hc : ∃ D, (l.filterMap (fun j => slots[j]?) ++ p :: D).Perm ps' ∧
      ∀ d ∈ D, (∀ c ∈ l.filterMap (fun j => slots[j]?), tailPred side d.1 c.1 = false) ∧
        tailPred side d.1 p.1 = false) :
    ∃ s', tailAssign H side s p.1 p.2 i = .val s' ∧
      Inv side k ps' s' (slots.set i p) := by
  have hheap' : IsHeap (tailCmp side (s.samples.set i p.1)) l := hheap.congr (cmp_set hnot)
  have hsw := tailCmp_strictWeak side (s.samples.set i p.1)
  have hp := H.push_perm _ l i hsw hheap'
  refine ⟨_, by
    rw [tailAssign, if_pos]
    rw [hs, hv]; simp [hlen, hi], ?_⟩
  have hfm : ((H.push (tailCmp side (s.samples.set i p.1)) (l ++ [i])).filterMap
      (fun j => (slots.set i p)[j]?)).Perm (l.filterMap (fun j => slots[j]?) ++ [p]) := by
    refine (hp.filterMap _).trans ?_
    rw [List.filterMap_append, filterMap_set hnot]
    simp [hlen, hi]
  constructor
  · simp [hs, List.map_set]
  · simp [hv, List.map_set]
  · simp [hlen]
  · dsimp only; rw [hidx]; exact hp.trans hperm
  · dsimp only; rw [hidx]; exact H.push_heap _ l i hsw hheap'
  · simp
  · obtain ⟨D, hD, hd⟩ := hc
    dsimp only; rw [hidx]
    refine ⟨D, ?_, ?_⟩
    · refine (hfm.append_right D).trans ?_
      simpa using hD
    · intro d hdm c hcm
      have := hfm.mem_iff.mp hcm
      rw [List.mem_append, List.mem_singleton] at this
      rcases this with h | rfl
      · exact (hd d hdm).1 c h
      · exact (hd d hdm).2

theorem push (H : HeapImpl ℕ) (hk : 1 ≤ k) (h : Inv side k ps s slots) (p : α × V) :
    ∃ s' slots', tailPush H side s p.1 p.2 = .val s' ∧ Inv side k (ps ++ [p]) s' slots' := by
  have hlenidx := h.length_indices
  have hslen : s.samples.length = k := by rw [h.samples]; simp [h.len]
  obtain ⟨D, hD, hd⟩ := h.cached
  unfold tailPush
  by_cases hfull : s.indices.length < s.samples.length
  · rw [if_pos hfull]
    rw [hslen] at hfull
    have hn : ps.length < k := by omega
    have hin : s.indices.length = ps.length := by omega
    have hD0 : D = [] := by
      have h1 := hD.length_eq
      rw [List.length_append, filterMap_length (fun i hi => h.mem_lt hi)] at h1
      exact List.eq_nil_of_length_eq_zero (by omega)
    subst hD0
    have hnot : s.indices.length ∉ s.indices := by
      intro hmem
      have := h.perm.mem_iff.mp hmem
      rw [List.mem_range] at this
      omega
    obtain ⟨s', hs', hinv⟩ := assign (H := H) (s := { s with indices := s.indices ++ [s.indices.length] })
      (side := side) (k := k) (slots := slots) (l := s.indices) (i := s.indices.length) (p := p)
      (ps' := ps ++ [p]) h.samples h.variates h.len hfull hnot
      (by
        have e : min (ps ++ [p]).length k = min ps.length k + 1 := by simp; omega
        rw [e, List.range_succ, hlenidx]
        exact h.perm.append_right _)
      h.heap rfl
      ⟨[], by
        refine ⟨?_, by simp⟩
        rw [List.append_nil] at hD
        exact hD.append_right [p]⟩
    exact ⟨s', _, hs', hinv⟩
  · rw [if_neg hfull]
    rw [hslen] at hfull
    have hn : k ≤ ps.length := by omega
    cases hidx : s.indices with
    | nil => rw [hidx] at hlenidx; simp at hlenidx; omega
    | cons i0 is =>
      have hi0 : i0 < slots.length := h.mem_lt (by rw [hidx]; simp)
      have hi0' : s.samples[i0]? = some (slots[i0]).1 := by
        rw [h.samples, List.getElem?_map, List.getElem?_eq_getElem hi0]; rfl
      have hsw := tailCmp_strictWeak side s.samples
      have hheap := h.heap
      rw [hidx] at hheap
      have hroot := hheap.root hsw
      have hC : s.indices.filterMap (fun i => slots[i]?) =
          slots[i0] :: is.filterMap (fun i => slots[i]?) := by
        rw [hidx, List.filterMap_cons, List.getElem?_eq_getElem hi0]
      have hrootC : ∀ c ∈ s.indices.filterMap (fun i => slots[i]?),
          tailPred side (slots[i0]).1 c.1 = false := by
        intro c hc
        obtain ⟨i, hi, hic⟩ := List.mem_filterMap.mp hc
        rw [hidx] at hi
        have := hroot i hi
        unfold tailCmp at this
        rw [hi0', h.samples, List.getElem?_map, hic] at this
        exact this
      simp only [hi0']
      by_cases hpred : tailPred side p.1 (slots[i0]).1 = true
      · rw [if_pos hpred]
        obtain ⟨l', hl', hl'p, hl'h⟩ := H.pop_spec _ i0 is hsw hheap
        rw [hl']
        simp only [List.getLast?_concat]
        have hnd := h.nodup
        rw [hidx, List.nodup_cons] at hnd
        have hCl : (l'.filterMap (fun i => slots[i]?)).Perm (is.filterMap (fun i => slots[i]?)) :=
          hl'p.filterMap _
        obtain ⟨s', hs', hinv⟩ := assign (H := H) (s := { s with indices := l' ++ [i0] })
          (side := side) (k := k) (slots := slots) (l := l') (i := i0) (p := p)
          (ps' := ps ++ [p]) h.samples h.variates h.len (by rw [← h.len]; exact hi0)
          (fun hm => hnd.1 (hl'p.mem_iff.mp hm))
          (by
            have e : min (ps ++ [p]).length k = min ps.length k := by simp; omega
            rw [e]
            refine List.Perm.trans ?_ h.perm
            rw [hidx]
            exact (List.perm_append_singleton i0 l').trans (hl'p.cons i0))
          hl'h rfl
          ⟨slots[i0] :: D, by
            refine ⟨?_, ?_⟩
            · rw [hC] at hD
              refine (hCl.append_right _).trans ?_
              refine List.Perm.trans ?_ (hD.append_right [p])
              generalize is.filterMap (fun i => slots[i]?) = Cs
              generalize slots[i0] = y
              have e1 : (Cs ++ p :: y :: D).Perm (p :: y :: (Cs ++ D)) :=
                (List.perm_middle).trans ((List.perm_middle).cons p)
              have e2 : ((y :: Cs ++ D) ++ [p]).Perm (p :: y :: (Cs ++ D)) :=
                List.perm_append_singleton _ _
              exact e1.trans e2.symm
            · intro d hdm
              rcases List.mem_cons.mp hdm with rfl | hdm
              · refine ⟨fun c hc => hrootC c ?_, tailPred_asymm hpred⟩
                rw [hC]; exact List.mem_cons_of_mem _ (hCl.mem_iff.mp hc)
              · refine ⟨fun c hc => hd d hdm c ?_, ?_⟩
                · rw [hC]; exact List.mem_cons_of_mem _ (hCl.mem_iff.mp hc)
                · have h1 := hd d hdm slots[i0] (by rw [hC]; simp)
                  by_contra hne
                  have := tailPred_trans (by simpa using hne) hpred
                  simp_all⟩
        exact ⟨s', _, hs', hinv⟩
      · rw [if_neg hpred]
        refine ⟨s, slots, rfl, { h with perm := ?_, cached := ⟨D ++ [p], ?_, ?_⟩ }⟩
        · have e : min (ps ++ [p]).length k = min ps.length k := by simp; omega
          rw [e]; exact h.perm
        · rw [← List.append_assoc]
          exact hD.append_right [p]
        · intro d hdm c hc
          rcases List.mem_append.mp hdm with hdm | hdm
          · exact hd d hdm c hc
          · rw [List.mem_singleton] at hdm
            subst hdm
            exact tailPred_negTrans (by simpa using hpred) (hrootC c hc)

theorem sort (H : HeapImpl ℕ) (h : Inv side k ps s slots) :
    Inv side k ps (tailSort H side s) slots ∧ (tailSort H side s).isSorted = true := by
  unfold tailSort
  by_cases hs : s.isSorted = true
  · rw [if_pos hs]; exact ⟨h, hs⟩
  · rw [if_neg hs]
    refine ⟨?_, rfl⟩
    have hsw := tailCmp_strictWeak side s.samples
    have hp := (List.reverse_perm _).trans (H.sort_perm _ _ hsw h.heap)
    have hsorted : (H.sort (tailCmp side s.samples) s.indices).reverse.Pairwise
        (fun i j => tailCmp side s.samples i j = false) := by
      rw [List.pairwise_reverse]
      exact H.sort_sorted _ _ hsw h.heap
    obtain ⟨D, hD, hd⟩ := h.cached
    exact {
      samples := h.samples, variates := h.variates, len := h.len
      perm := hp.trans h.perm
      heap := isHeap_of_pairwise hsorted
      sorted := fun _ => hsorted
      cached := ⟨D, ((hp.filterMap _).append_right D).trans hD,
        fun d hdm c hc => hd d hdm c ((hp.filterMap _).mem_iff.mp hc)⟩ }

end TailSt.Inv

theorem pushes_append {X Q : Type} (h h' : List (Op X Q)) :
    pushes (h ++ h') = pushes h ++ pushes h' := by
  induction h with
  | nil => rfl
  | cons o h ih => cases o <;> simp [pushes, ih]

@[simp] theorem pushes_onlyPushes {X Q : Type} (xs : List X) :
    pushes (onlyPushes xs : List (Op X Q)) = xs := by
  induction xs with
  | nil => rfl
  | cons x xs ih => simpa [onlyPushes, pushes] using ih

theorem tailExec_inv (H : HeapImpl ℕ) (side : Side) {k : ℕ} (hk : 1 ≤ k)
    (h : List (Op (α × V) Unit)) : ∀ {ps : List (α × V)} {s : TailSt α V} {slots},
    TailSt.Inv side k ps s slots →
    ∃ s' slots', tailExec H side s h = .val s' ∧ TailSt.Inv side k (ps ++ pushes h) s' slots' := by
  induction h with
  | nil => intro ps s slots hi; exact ⟨s, slots, rfl, by simpa [pushes] using hi⟩
  | cons o os ih =>
    intro ps s slots hi
    cases o with
    | push p =>
      obtain ⟨s1, slots1, e1, i1⟩ := hi.push H hk p
      obtain ⟨s2, slots2, e2, i2⟩ := ih i1
      refine ⟨s2, slots2, ?_, ?_⟩
      · simp only [tailExec, tailStep, e1, Res.val_bind, e2]
      · simpa [pushes] using i2
    | query q =>
      obtain ⟨s2, slots2, e2, i2⟩ := ih (hi.sort H).1
      refine ⟨s2, slots2, ?_, ?_⟩
      · simp only [tailExec, tailStep, Res.val_bind, e2]
      · simpa [pushes] using i2

theorem tailRun_inv (H : HeapImpl ℕ) (side : Side) {k : ℕ} (hk : 1 ≤ k) (x0 : α) (v0 : V)
    (h : List (Op (α × V) Unit)) :
    ∃ s slots, tailRun H side k x0 v0 h = .val s ∧ TailSt.Inv side k (pushes h) s slots := by
  obtain ⟨s, slots, h1, h2⟩ := tailExec_inv H side hk h (tailInit_inv side k x0 v0)
  exact ⟨s, slots, h1, by simpa using h2⟩

theorem readSlots_eq {β : Type} (slots : List β) (l : List ℕ) (h : ∀ i ∈ l, i < slots.length) :
    readSlots slots l = .val (l.filterMap (fun i => slots[i]?)) := by
  induction l with
  | nil => rfl
  | cons i l ih =>
    have hi := h i (by simp)
    rw [readSlots, List.filterMap_cons, List.getElem?_eq_getElem hi]
    simp [ih (fun j hj => h j (by simp [hj]))]

namespace TailSt.Inv
variable {side : Side} {k : ℕ} {ps : List (α × V)} {s : TailSt α V} {slots : List (α × V)}

/-- What `tail` and `tail_variate` return, in terms of one list of pairs. -/
theorem result (H : HeapImpl ℕ) (h : Inv side k ps s slots) :
    ∃ out : List (α × V), tailResult H side s = .val (out.map Prod.fst) ∧
      tailVariateResult H side s = .val (out.map Prod.snd) ∧
      out.length = min ps.length k ∧
      out.Pairwise (fun a b => Spec.geExt side a.1 b.1) ∧
      ∃ D, (out ++ D).Perm ps ∧ ∀ d ∈ D, ∀ c ∈ out, Spec.geExt side c.1 d.1 := by
  obtain ⟨hi, hs⟩ := h.sort H
  have hidx := hi.sorted hs
  set s' := tailSort H side s with hs'
  refine ⟨s'.indices.reverse.filterMap (fun i => slots[i]?), ?_, ?_, ?_, ?_, ?_⟩
  · unfold tailResult
    rw [← hs', readSlots_eq, List.map_filterMap, hi.samples]
    · simp only [List.getElem?_map]
    · intro i hm
      rw [hi.samples]; simpa using hi.mem_lt (List.mem_reverse.mp hm)
  · unfold tailVariateResult
    rw [← hs', readSlots_eq, List.map_filterMap, hi.variates]
    · simp only [List.getElem?_map]
    · intro i hm
      rw [hi.variates]; simpa using hi.mem_lt (List.mem_reverse.mp hm)
  · rw [filterMap_length]
    · simpa using hi.length_indices
    · intro i hm; exact hi.mem_lt (List.mem_reverse.mp hm)
  · rw [List.filterMap_reverse, List.pairwise_reverse, List.pairwise_filterMap]
    refine hidx.imp ?_
    intro i j hij a ha b hb
    unfold tailCmp at hij
    rw [hi.samples, List.getElem?_map, List.getElem?_map, ha, hb] at hij
    exact tailPred_false_iff.mp hij
  · obtain ⟨D, hD, hd⟩ := hi.cached
    have hp : (s'.indices.reverse.filterMap (fun i => slots[i]?)).Perm
        (s'.indices.filterMap (fun i => slots[i]?)) := (List.reverse_perm _).filterMap _
    refine ⟨D, (hp.append_right D).trans hD, fun d hdm c hc => ?_⟩
    exact tailPred_false_iff.mp (hd d hdm c (hp.mem_iff.mp hc))

end TailSt.Inv

instance (side : Side) : Std.Total (Spec.geExt (α := α) side) :=
  ⟨fun a b => by cases side <;> simp [Spec.geExt, le_total]⟩
instance (side : Side) : IsTrans α (Spec.geExt side) :=
  ⟨fun a b c h1 h2 => by cases side <;> simp only [Spec.geExt] at * <;> order⟩
instance (side : Side) : Std.Antisymm (Spec.geExt (α := α) side) :=
  ⟨fun a b h1 h2 => by cases side <;> simp only [Spec.geExt] at * <;> order⟩

theorem byExtremity_perm (side : Side) (xs : List α) : (Spec.byExtremity side xs).Perm xs :=
  List.perm_insertionSort _ _

theorem byExtremity_sorted (side : Side) (xs : List α) :
    (Spec.byExtremity side xs).Pairwise (Spec.geExt side) :=
  List.pairwise_insertionSort _ _

theorem byExtremity_unique {side : Side} {xs l : List α} (hp : l.Perm xs)
    (hs : l.Pairwise (Spec.geExt side)) : l = Spec.byExtremity side xs :=
  (hp.trans (byExtremity_perm side xs).symm).eq_of_pairwise
    (fun a b _ _ h1 h2 => Std.Antisymm.antisymm a b h1 h2) hs (byExtremity_sorted side xs)

/-- A sorted selection that dominates the rest is the head of the sorted list. -/
theorem eq_extremes {side : Side} {k : ℕ} {xs out D : List α} (hp : (out ++ D).Perm xs)
    (hlen : out.length = min xs.length k) (hs : out.Pairwise (Spec.geExt side))
    (hd : ∀ d ∈ D, ∀ c ∈ out, Spec.geExt side c d) : out = Spec.extremes side k xs := by
  have hfull : out ++ Spec.byExtremity side D = Spec.byExtremity side xs := by
    apply byExtremity_unique
    · exact ((byExtremity_perm side D).append_left out).trans hp
    · rw [List.pairwise_append]
      exact ⟨hs, byExtremity_sorted side D, fun a ha b hb =>
        hd b ((byExtremity_perm side D).mem_iff.mp hb) a ha⟩
  unfold Spec.extremes
  rw [← hfull]
  have hl := hp.length_eq
  rw [List.length_append] at hl
  by_cases hk : xs.length ≤ k
  · have : D = [] := List.eq_nil_of_length_eq_zero (by omega)
    subst this
    have : Spec.byExtremity side ([] : List α) = [] := rfl
    rw [this, List.append_nil, List.take_of_length_le (by omega)]
  · rw [List.take_append_of_le_length (by omega), List.take_of_length_le (by omega)]

end
end Acc
