import Verif.Proofs.PSquare
import Mathlib.Data.List.Induction
import Mathlib.Order.Bounds.Basic

/-! # The weighted P-square accumulators run the P-square algorithm -/

set_option linter.unusedSectionVars false

namespace Acc

open Spec

/-! ## The selection sort -/

section
variable {K : Type} [LinearOrder K]

theorem exists_min_fst (l : List (K × K)) (h : l ≠ []) : ∃ a ∈ l, ∀ b ∈ l, a.1 ≤ b.1 := by
  induction l with
  | nil => exact absurd rfl h
  | cons a l ih =>
    by_cases hl : l = []
    · subst hl; exact ⟨a, by simp, by simp⟩
    · obtain ⟨c, hc, hm⟩ := ih hl
      rcases le_total a.1 c.1 with h1 | h1
      · refine ⟨a, by simp, fun b hb => ?_⟩
        rcases List.mem_cons.1 hb with rfl | hb
        · exact le_rfl
        · exact h1.trans (hm b hb)
      · refine ⟨c, by simp [hc], fun b hb => ?_⟩
        rcases List.mem_cons.1 hb with rfl | hb
        · exact h1
        · exact hm b hb

theorem minIdx_spec {l : List (K × K)} (h : l ≠ []) :
    ∃ hi : minIdx l < l.length, ∀ b ∈ l, l[minIdx l].1 ≤ b.1 := by
  obtain ⟨a, ha, hm⟩ := exists_min_fst l h
  have hi : minIdx l < l.length := by
    unfold minIdx
    rw [List.findIdx_lt_length]
    exact ⟨a, ha, by simpa using hm⟩
  refine ⟨hi, fun b hb => ?_⟩
  have : (l.all fun b => decide (l[minIdx l].1 ≤ b.1)) = true :=
    List.findIdx_getElem (p := fun a : K × K => l.all fun b => decide (a.1 ≤ b.1)) (xs := l) (w := hi)
  simp only [List.all_eq_true, decide_eq_true_eq] at this
  exact this b hb

theorem set_perm (a : K × K) {t : List (K × K)} {d : ℕ} (hd : d < t.length) :
    (t[d] :: t.set d a).Perm (a :: t) := by
  induction t generalizing d with
  | nil => simp at hd
  | cons c t ih =>
    cases d with
    | zero => simpa using List.Perm.swap a c t
    | succ d =>
      have := ih (d := d) (by simpa using hd)
      simp only [List.getElem_cons_succ, List.set_cons_succ]
      exact (List.Perm.swap c _ _).trans ((this.cons c).trans (List.Perm.swap a c t))

/-- The selection sort returns a permutation, sorted by height. -/
theorem selSort_spec (n : ℕ) (l : List (K × K)) (hl : l.length = n) :
    (selSort n l).Perm l ∧ (selSort n l).Pairwise (fun a b => a.1 ≤ b.1) := by
  induction n generalizing l with
  | zero =>
    have : l = [] := List.length_eq_zero_iff.1 hl
    subst this
    simp [selSort]
  | succ n ih =>
    cases l with
    | nil => simp at hl
    | cons a t =>
      have hn : t.length = n := by simpa using hl
      obtain ⟨hi, hm⟩ := minIdx_spec (l := a :: t) (by simp)
      unfold selSort
      split
      · rename_i h0
        simp only [h0, List.getElem_cons_zero] at hm
        obtain ⟨p, s⟩ := ih t hn
        refine ⟨p.cons a, List.pairwise_cons.2 ⟨fun b hb => hm b ?_, s⟩⟩
        exact List.mem_cons_of_mem _ (p.mem_iff.1 hb)
      · rename_i d hd
        have hdl : d < t.length := by
          rw [hd] at hi; simpa using hi
        simp only [hd, List.getElem_cons_succ] at hm
        rw [List.getElem?_eq_getElem hdl]
        obtain ⟨p, s⟩ := ih (t.set d a) (by simpa using hn)
        have hp := set_perm a hdl
        refine ⟨(p.cons _).trans hp, List.pairwise_cons.2 ⟨fun b hb => hm b ?_, s⟩⟩
        exact hp.mem_iff.1 (List.mem_cons_of_mem _ (p.mem_iff.1 hb))

end

@[simp] theorem prefixSums_length {K : Type} [Arith K] (acc : K) (ws : List K) : (prefixSums acc ws).length = ws.length := by
  induction ws generalizing acc with
  | nil => rfl
  | cons w ws ih => simp [prefixSums, ih]

variable {K : Type} [Field K] [LinearOrder K] [IsStrictOrderedRing K]

theorem prefixSums_get (acc : K) (ws : List K) {i : ℕ} (hi : i < ws.length) :
    (prefixSums acc ws)[i]? = some (acc + (ws.take (i + 1)).sum) := by
  induction ws generalizing acc i with
  | nil => simp at hi
  | cons w ws ih =>
    cases i with
    | zero => simp [prefixSums]
    | succ i =>
      simp only [prefixSums, List.getElem?_cons_succ]
      rw [ih _ (by simpa using hi)]
      simp [List.take_succ_cons, add_assoc]

/-! ## Adjusting without any assumption on the positions -/

/-- Ordered heights. -/
def QOrd (m : ℕ) (q : ℕ → K) : Prop := ∀ i, i + 1 < m → q i ≤ q (i + 1)

theorem QOrd.ord {m : ℕ} {q : ℕ → K} (h : QOrd m q) : (⟨q, fun i => (i : K)⟩ : Markers K).Ord m :=
  ⟨h, fun i _ => by push_cast; linarith⟩

/-- One iteration keeps the heights ordered, changes only marker `i`, and never goes wrong. -/
theorem psqAdjust1_any {M : Markers K} {m i : ℕ} (h : QOrd m M.q) (hi : 1 ≤ i) (hm : i + 1 < m)
    (t : ℕ → K) :
    ∃ M' : Markers K, psqAdjust1 (tab m t) (tab m M.q, tab m M.n) i
      = .val (tab m M'.q, tab m M'.n) ∧ QOrd m M'.q ∧
        ∀ l, l ≠ i → M'.q l = M.q l ∧ M'.n l = M.n l := by
  have hq1 : M.q (i - 1) ≤ M.q i := by
    have := h (i - 1) (by omega)
    rwa [Nat.sub_add_cancel hi] at this
  have hq2 := h i hm
  have upd : ∀ v n, M.q (i - 1) ≤ v → v ≤ M.q (i + 1) →
      QOrd m (⟨Function.update M.q i v, Function.update M.n i n⟩ : Markers K).q ∧
      ∀ l, l ≠ i → (⟨Function.update M.q i v, Function.update M.n i n⟩ : Markers K).q l = M.q l ∧
        (⟨Function.update M.q i v, Function.update M.n i n⟩ : Markers K).n l = M.n l := by
    intro v n h1 h2
    refine ⟨?_, fun l hl => by simp [hl]⟩
    intro l hl
    show Function.update M.q i v l ≤ Function.update M.q i v (l + 1)
    rcases eq_or_ne l i with hli | hli
    · rw [hli, Function.update_self, Function.update_of_ne (by omega)]; exact h2
    · rw [Function.update_of_ne hli]
      rcases eq_or_ne (l + 1) i with hli' | hli'
      · rw [hli', Function.update_self, show l = i - 1 by omega]; exact h1
      · rw [Function.update_of_ne hli']; exact h l hl
  unfold psqAdjust1
  simp only [getAt_tab M.q (show i < m by omega), getAt_tab M.q hm,
    getAt_tab M.q (show i - 1 < m by omega), getAt_tab M.n (show i < m by omega), getAt_tab M.n hm,
    getAt_tab M.n (show i - 1 < m by omega), getAt_tab t (show i < m by omega), Res.val_bind]
  by_cases c : 1 ≤ t i - M.n i ∧ 1 < M.n (i + 1) - M.n i ∨
      t i - M.n i ≤ -1 ∧ M.n (i - 1) - M.n i < -1
  · rw [if_pos c]
    have hlin : ∃ v, (if 0 < t i - M.n i then (do
          let a ← fdiv (M.q (i + 1) - M.q i) (M.n (i + 1) - M.n i)
          pure (M.q i + a)) else (do
          let b ← fdiv (M.q (i - 1) - M.q i) (M.n (i - 1) - M.n i)
          pure (M.q i - b)) : Res K) = .val v ∧ M.q (i - 1) ≤ v ∧ v ≤ M.q (i + 1) := by
      rcases c with ⟨c1, c2⟩ | ⟨c1, c2⟩
      · rw [if_pos (by linarith), fdiv_ne (by intro e; linarith), Res.val_bind]
        refine ⟨_, rfl, ?_⟩
        have h0 : 0 ≤ (M.q (i + 1) - M.q i) / (M.n (i + 1) - M.n i) :=
          div_nonneg (by linarith) (by linarith)
        have h1 : (M.q (i + 1) - M.q i) / (M.n (i + 1) - M.n i) ≤ M.q (i + 1) - M.q i :=
          div_le_self (by linarith) c2.le
        constructor <;> linarith
      · rw [if_neg (by intro e; linarith), fdiv_ne (by intro e; linarith), Res.val_bind]
        refine ⟨_, rfl, ?_⟩
        have e : (M.q (i - 1) - M.q i) / (M.n (i - 1) - M.n i)
            = (M.q i - M.q (i - 1)) / (M.n i - M.n (i - 1)) := by
          rw [← neg_sub (M.q i), ← neg_sub (M.n i), neg_div_neg_eq]
        rw [e]
        have h0 : 0 ≤ (M.q i - M.q (i - 1)) / (M.n i - M.n (i - 1)) :=
          div_nonneg (by linarith) (by linarith)
        have h1 : (M.q i - M.q (i - 1)) / (M.n i - M.n (i - 1)) ≤ M.q i - M.q (i - 1) :=
          div_le_self (by linarith) (by linarith)
        constructor <;> linarith
    obtain ⟨v, hv, hv1, hv2⟩ := hlin
    simp only [hv]
    generalize hpar : (fdiv (if 0 < t i - M.n i then (1 : K) else -1)
      (M.n (i + 1) - M.n i - (M.n (i - 1) - M.n i)) >>= _ : Res K) = r
    have fin : ∀ u, M.q (i - 1) ≤ u → u ≤ M.q (i + 1) → ∃ M' : Markers K, (do
        let hs ← setAt (tab m M.q) i u
        let ns ← setAt (tab m M.n) i (M.n i + if 0 < t i - M.n i then 1 else -1)
        pure (hs, ns) : Res (List K × List K)) = .val (tab m M'.q, tab m M'.n) ∧ QOrd m M'.q ∧
          ∀ l, l ≠ i → M'.q l = M.q l ∧ M'.n l = M.n l := by
      intro u hu1 hu2
      rw [setAt_tab M.q (show i < m by omega), Res.val_bind,
        setAt_tab M.n (show i < m by omega), Res.val_bind, Res.pure_eq]
      exact ⟨⟨Function.update M.q i u, Function.update M.n i _⟩, rfl, upd u _ hu1 hu2⟩
    cases r with
    | val w =>
      simp only
      split
      · rename_i hw; exact fin w hw.1.le hw.2.le
      · exact fin v hv1 hv2
    | _ => exact fin v hv1 hv2
  · rw [if_neg c]
    exact ⟨M, rfl, h, fun _ _ => ⟨rfl, rfl⟩⟩

theorem psqAdjust_any {M : Markers K} {m : ℕ} (h : QOrd m M.q) (t : ℕ → K) :
    ∃ M' : Markers K, psqAdjust (tab m t) (tab m M.q, tab m M.n)
      = .val (tab m M'.q, tab m M'.n) ∧ QOrd m M'.q ∧
        ∀ l, l = 0 ∨ m - 1 ≤ l → M'.q l = M.q l ∧ M'.n l = M.n l := by
  unfold psqAdjust
  simp only [tab_length]
  have hl : ∀ i ∈ List.range' 1 (m - 2), 1 ≤ i ∧ i + 1 < m := fun i hi => mem_inner hi
  revert hl
  generalize List.range' 1 (m - 2) = l
  intro hl
  induction l generalizing M with
  | nil => exact ⟨M, rfl, h, fun _ _ => ⟨rfl, rfl⟩⟩
  | cons i l ih =>
    have hi := hl i (by simp)
    obtain ⟨M1, e1, q1, o1⟩ := psqAdjust1_any h hi.1 hi.2 t
    obtain ⟨M2, e2, q2, o2⟩ := ih q1 (fun j hj => hl j (by simp [hj]))
    refine ⟨M2, ?_, q2, fun l' hl' => ?_⟩
    · rw [foldRes, e1, Res.val_bind, e2]
    · have a := o1 l' (by omega)
      have b := o2 l' hl'
      exact ⟨b.1.trans a.1, b.2.trans a.2⟩

theorem observe_qord {m : ℕ} (hm : 2 ≤ m) (x w : K) {M : Markers K} (h : QOrd m M.q) :
    QOrd m (observe m x w M).q := by
  have := observe_ord (M := ⟨M.q, fun i => (i : K) + 1⟩) hm x (one_pos : (0 : K) < 1)
    ⟨h, fun i _ => by push_cast; linarith⟩ (by simp)
  exact this.q

/-! ## The run of the pushes -/

/-- The pushes alone. -/
def wpsqRun (m summed : ℕ) (desired : K → K → Res (List K)) (ps : List (K × K)) : Res (WPsqSt K) :=
  foldRes (wpsqPush m summed desired) (wpsqInit m) ps

theorem foldRes_snoc {α β : Type} (f : α → β → Res α) (a : α) (l : List β) (b : β) :
    foldRes f a (l ++ [b]) = (foldRes f a l >>= fun s => f s b) := by
  induction l generalizing a with
  | nil =>
    simp only [List.nil_append, foldRes, Res.val_bind]
    cases f a b <;> rfl
  | cons c l ih =>
    simp only [List.cons_append, foldRes]
    cases f a c with
    | val s => simp only [Res.val_bind]; exact ih s
    | _ => rfl

theorem wpsqRun_snoc (m summed : ℕ) (desired : K → K → Res (List K)) (ps : List (K × K)) (p : K × K) :
    wpsqRun m summed desired (ps ++ [p])
      = (wpsqRun m summed desired ps >>= fun s => wpsqPush m summed desired s p) :=
  foldRes_snoc _ _ _ _

/-- The starting markers of the code: cumulated weights for the first `summed` markers only. -/
def wStart (summed : ℕ) (l : List (K × K)) : Markers K where
  q i := ((l.map Prod.fst)[i]?).getD 0
  n i := if i < summed then pTotal (l.take (i + 1)) else ((l.map Prod.snd)[i]?).getD 0

/-- Facts about the state that hold for any weights. -/
structure WPsqSt.WF (m summed : ℕ) (s : WPsqSt K) (ps : List (K × K)) : Prop where
  cnt : s.cnt = ps.length
  wsum : s.wsum = pTotal ps
  before : ps.length < m → s.heights = ps.map Prod.fst ++ List.replicate (m - ps.length) 0 ∧
    s.pos = ps.map Prod.snd ++ List.replicate (m - ps.length) 0
  start : ps.length = m → s.heights = tab m (wStart summed (selSort m ps)).q ∧
    s.pos = tab m (wStart summed (selSort m ps)).n
  after : m ≤ ps.length → ∃ M : Markers K, s.heights = tab m M.q ∧ s.pos = tab m M.n ∧ QOrd m M.q ∧
    IsLeast {x | x ∈ ps.map Prod.fst} (M.q 0) ∧ IsGreatest {x | x ∈ ps.map Prod.fst} (M.q (m - 1)) ∧
    M.n (m - 1) = (wStart summed (selSort m (ps.take m))).n (m - 1) + pTotal (ps.drop m)

theorem wpsq_len {m summed : ℕ} {s : WPsqSt K} {ps : List (K × K)} (h : s.WF m summed ps) :
    s.heights.length = m ∧ s.pos.length = m := by
  rcases Nat.lt_or_ge ps.length m with hl | hl
  · obtain ⟨h1, h2⟩ := h.before hl
    rw [h1, h2]
    simp
    omega
  · obtain ⟨M, h1, h2, -⟩ := h.after hl
    rw [h1, h2]
    simp

theorem wStart_lists {m summed : ℕ} (hs : summed ≤ m) {l : List (K × K)} (hl : l.length = m) :
    l.map Prod.fst = tab m (wStart summed l).q ∧
    prefixSums 0 ((l.map Prod.snd).take summed) ++ (l.map Prod.snd).drop summed
      = tab m (wStart summed l).n := by
  constructor
  · conv_lhs => rw [eq_tab (l.map Prod.fst) 0]
    simp only [List.length_map, hl]
    rfl
  · apply List.ext_getElem?
    intro i
    rcases Nat.lt_or_ge i m with hi | hi
    · rw [List.getElem?_eq_getElem (l := tab _ _) (by simpa using hi), tab_getElem]
      simp only [wStart]
      by_cases h : i < summed
      · rw [if_pos h, List.getElem?_append_left (by simp; omega), prefixSums_get _ _ (by simp; omega),
          zero_add, List.take_take, min_eq_left (by omega), pTotal, List.map_take]
      · rw [if_neg h, List.getElem?_append_right (by simp; omega), prefixSums_length, List.length_take,
          List.length_map, min_eq_left (by omega), List.getElem?_drop,
          show summed + (i - summed) = i by omega]
        rw [List.getElem?_eq_getElem (by simp; omega)]
        rfl
    · rw [List.getElem?_eq_none (by simp; omega), List.getElem?_eq_none (by simpa using hi)]

theorem wStart_good {m summed : ℕ} (hm : 2 ≤ m) {ps : List (K × K)} (hl : ps.length = m) :
    QOrd m (wStart summed (selSort m ps)).q ∧
    IsLeast {x | x ∈ ps.map Prod.fst} ((wStart summed (selSort m ps)).q 0) ∧
    IsGreatest {x | x ∈ ps.map Prod.fst} ((wStart summed (selSort m ps)).q (m - 1)) := by
  obtain ⟨hp, hs⟩ := selSort_spec m ps hl
  set l := selSort m ps with hldef
  have hll : l.length = m := by rw [hp.length_eq, hl]
  have hq : ∀ i (h : i < l.length), (wStart summed l).q i = l[i].1 := by
    intro i h; simp [wStart, h]
  have hpw := List.pairwise_iff_getElem.mp hs
  have hmono : ∀ i j (hi : i < l.length) (hj : j < l.length), i ≤ j → l[i].1 ≤ l[j].1 := by
    intro i j hi hj hij
    rcases Nat.lt_or_eq_of_le hij with h | rfl
    · exact hpw i j hi hj h
    · exact le_rfl
  have hmem : ∀ x, x ∈ ps.map Prod.fst ↔ x ∈ l.map Prod.fst := fun x => (hp.map Prod.fst).mem_iff.symm
  refine ⟨fun i hi => ?_, ⟨?_, ?_⟩, ⟨?_, ?_⟩⟩
  · rw [hq i (by omega), hq (i + 1) (by omega)]
    exact hmono _ _ _ _ (by omega)
  · rw [Set.mem_ofPred_eq, hmem, hq 0 (by omega)]
    exact List.mem_map.2 ⟨_, List.getElem_mem _, rfl⟩
  · intro x hx
    rw [Set.mem_ofPred_eq, hmem] at hx
    obtain ⟨p, hp, rfl⟩ := List.mem_map.1 hx
    obtain ⟨i, hi, rfl⟩ := List.mem_iff_getElem.1 hp
    rw [hq 0 (by omega)]
    exact hmono _ _ _ _ (by omega)
  · rw [Set.mem_ofPred_eq, hmem, hq (m - 1) (by omega)]
    exact List.mem_map.2 ⟨_, List.getElem_mem _, rfl⟩
  · intro x hx
    rw [Set.mem_ofPred_eq, hmem] at hx
    obtain ⟨p, hp, rfl⟩ := List.mem_map.1 hx
    obtain ⟨i, hi, rfl⟩ := List.mem_iff_getElem.1 hp
    rw [hq (m - 1) (by omega)]
    exact hmono _ _ _ _ (by omega)

/-- The first `m` pushes. -/
theorem wpsqPush_before {m summed : ℕ} (hm : 2 ≤ m) (hsm : summed ≤ m)
    (desired : K → K → Res (List K)) {s : WPsqSt K} {ps : List (K × K)} (h : s.WF m summed ps)
    (p : K × K) (hc : ps.length + 1 ≤ m) :
    ∃ s', wpsqPush m summed desired s p = .val s' ∧ s'.WF m summed (ps ++ [p]) := by
  have hw : s.wsum + p.2 = pTotal (ps ++ [p]) := by rw [pTotal_append, h.wsum]; simp [pTotal]
  obtain ⟨hl1, hl2⟩ := wpsq_len h
  obtain ⟨hh, hp⟩ := h.before (by omega)
  have hset : ∀ (f : K × K → K),
      (ps.map f ++ List.replicate (m - ps.length) (0 : K)).set ps.length (f p)
        = (ps ++ [p]).map f ++ List.replicate (m - (ps.length + 1)) 0 := by
    intro f
    rw [List.set_append_right _ _ (by simp), List.length_map, Nat.sub_self,
      show m - ps.length = (m - (ps.length + 1)) + 1 by omega, List.replicate_succ,
      List.set_cons_zero]
    simp
  unfold wpsqPush wpsqStep
  simp only [h.cnt]
  rw [if_pos hc, Nat.add_sub_cancel, setAt_lt (by omega), Res.val_bind, setAt_lt (by omega),
    Res.val_bind, hh, hp, hset Prod.fst, hset Prod.snd]
  rcases Nat.lt_or_eq_of_le hc with hlt | heq
  · rw [if_neg (by omega), Res.pure_eq]
    refine ⟨_, rfl, by simp, hw, fun _ => ?_, fun h' => ?_, fun h' => ?_⟩
    · simp
    · simp at h'; omega
    · simp at h'; omega
  · rw [if_pos heq, Res.pure_eq]
    have e : m - (ps.length + 1) = 0 := by omega
    have hz : ((ps ++ [p]).map Prod.fst).zip ((ps ++ [p]).map Prod.snd) = ps ++ [p] := by
      rw [← List.unzip_fst, ← List.unzip_snd, List.zip_unzip]
    have hln : (ps ++ [p]).length = m := by simp; omega
    simp only [e, List.replicate_zero, List.append_nil, hz]
    have hll : (selSort m (ps ++ [p])).length = m := by
      rw [(selSort_spec m _ hln).1.length_eq, hln]
    obtain ⟨e1, e2⟩ := wStart_lists hsm hll
    refine ⟨_, rfl, by simp, hw, fun h' => ?_, fun _ => ⟨e1, e2⟩, fun _ => ⟨_, e1, e2, ?_⟩⟩
    · simp at h'; omega
    · obtain ⟨g1, g2, g3⟩ := wStart_good (summed := summed) hm hln
      refine ⟨g1, g2, g3, ?_⟩
      rw [List.take_of_length_le hln.le, List.drop_of_length_le hln.le]
      simp [pTotal]

theorem observe_extremes {m : ℕ} (hm : 2 ≤ m) {M : Markers K} {ps : List (K × K)}
    (p : K × K) (h1 : IsLeast {x | x ∈ ps.map Prod.fst} (M.q 0))
    (h2 : IsGreatest {x | x ∈ ps.map Prod.fst} (M.q (m - 1))) :
    IsLeast {x | x ∈ (ps ++ [p]).map Prod.fst} ((observe m p.1 p.2 M).q 0) ∧
    IsGreatest {x | x ∈ (ps ++ [p]).map Prod.fst} ((observe m p.1 p.2 M).q (m - 1)) := by
  have hmem : ∀ x, x ∈ (ps ++ [p]).map Prod.fst ↔ x ∈ ps.map Prod.fst ∨ x = p.1 := by
    intro x; simp [List.mem_append]
  simp only [observe, if_true, if_neg (show m - 1 ≠ 0 by omega)]
  refine ⟨⟨?_, ?_⟩, ⟨?_, ?_⟩⟩
  · rw [Set.mem_ofPred_eq, hmem]
    rcases le_total (M.q 0) p.1 with h | h
    · rw [min_eq_left h]; exact Or.inl h1.1
    · rw [min_eq_right h]; exact Or.inr rfl
  · intro x hx
    rw [Set.mem_ofPred_eq, hmem] at hx
    rcases hx with hx | rfl
    · exact (min_le_left _ _).trans (h1.2 hx)
    · exact min_le_right _ _
  · rw [Set.mem_ofPred_eq, hmem]
    rcases le_total (M.q (m - 1)) p.1 with h | h
    · rw [max_eq_right h]; exact Or.inr rfl
    · rw [max_eq_left h]; exact Or.inl h2.1
  · intro x hx
    rw [Set.mem_ofPred_eq, hmem] at hx
    rcases hx with hx | rfl
    · exact (h2.2 hx).trans (le_max_left _ _)
    · exact le_max_right _ _

/-- The code of a later push up to the adjustment: the observed markers. -/
theorem wpsqPush_later {m summed : ℕ} (hm : 2 ≤ m) {desired : K → K → Res (List K)}
    {s : WPsqSt K} {M : Markers K} (hq : QOrd m M.q) (p : K × K) (hc : ¬ s.cnt + 1 ≤ m)
    (hh : s.heights = tab m M.q) (hp : s.pos = tab m M.n) :
    wpsqPush m summed desired s p = (do
      let des ← desired ((observe m p.1 p.2 M).n 0) (s.wsum + p.2)
      let r ← psqAdjust des (tab m (observe m p.1 p.2 M).q, tab m (observe m p.1 p.2 M).n)
      pure ⟨s.cnt + 1, s.wsum + p.2, r.1, r.2⟩) := by
  have hcell : psqCell (tab m M.q) p.1
      = .val (tab m (observe m p.1 p.2 M).q, cellOf m M.q p.1, decide (p.1 < M.q 0)) :=
    psqCell_tab (M := ⟨M.q, fun i => (i : K)⟩) hm hq.ord p.1 p.2
  unfold wpsqPush wpsqStep
  simp only
  rw [if_neg hc, hh, hcell, Res.val_bind, hp]
  have hobs : tab m (fun i => if cellOf m M.q p.1 ≤ i
        then (if i = 0 then (if p.1 < M.q 0 then p.2 else M.n 0) else M.n i) + p.2
        else (if i = 0 then (if p.1 < M.q 0 then p.2 else M.n 0) else M.n i))
      = tab m (observe m p.1 p.2 M).n := by
    apply tab_congr
    intro i _
    simp only [observe]
    by_cases hi : i = 0
    · subst hi
      have := cellOf_pos m M.q p.1
      rw [if_neg (by omega)]
      simp
    · simp only [if_neg hi]
  have hpos : tab m (fun i => if i = 0 then (if p.1 < M.q 0 then p.2 else M.n 0) else M.n i)
      = if p.1 < M.q 0 then tab m (Function.update M.n 0 p.2) else tab m M.n := by
    split
    · apply tab_congr
      intro i _
      by_cases hi : i = 0
      · subst hi; simp
      · rw [Function.update_of_ne hi, if_neg hi]
    · apply tab_congr
      intro i _
      by_cases hi : i = 0
      · subst hi; simp
      · rw [if_neg hi]
  simp only [decide_eq_true_eq]
  by_cases h0 : p.1 < M.q 0
  · rw [if_pos h0, setAt_tab _ (by omega), Res.val_bind]
    have hpos' := hpos.trans (if_pos h0)
    rw [← hpos', psqBump_tab, hobs, getAt_tab _ (by omega), Res.val_bind]
  · rw [if_neg h0, Res.pure_eq, Res.val_bind]
    have hpos' := hpos.trans (if_neg h0)
    rw [← hpos', psqBump_tab, hobs, getAt_tab _ (by omega), Res.val_bind]

theorem wpsqPush_wf {m summed : ℕ} (hm : 2 ≤ m) (hsm : summed ≤ m) {desired : K → K → Res (List K)}
    (hd : ∀ n0 W, ∃ t, desired n0 W = .val (tab m t)) {s : WPsqSt K} {ps : List (K × K)}
    (h : s.WF m summed ps) (p : K × K) :
    ∃ s', wpsqPush m summed desired s p = .val s' ∧ s'.WF m summed (ps ++ [p]) := by
  by_cases hc : ps.length + 1 ≤ m
  · exact wpsqPush_before hm hsm desired h p hc
  · obtain ⟨M, hh, hp, hq, hmin, hmax, hlast⟩ := h.after (by omega)
    rw [wpsqPush_later hm hq p (by rw [h.cnt]; exact hc) hh hp]
    obtain ⟨t, ht⟩ := hd ((observe m p.1 p.2 M).n 0) (s.wsum + p.2)
    obtain ⟨M', e, q', o'⟩ := psqAdjust_any (observe_qord hm p.1 p.2 hq) t
    rw [ht, Res.val_bind, e, Res.val_bind, Res.pure_eq]
    refine ⟨_, rfl, by simp [h.cnt], ?_, fun h' => ?_, fun h' => ?_, fun _ => ⟨M', rfl, rfl, q', ?_⟩⟩
    · show s.wsum + p.2 = _
      rw [pTotal_append, h.wsum]; simp [pTotal]
    · simp at h'; omega
    · simp at h'; omega
    · obtain ⟨x1, x2⟩ := observe_extremes hm p hmin hmax
      rw [(o' 0 (Or.inl rfl)).1, (o' (m - 1) (Or.inr le_rfl)).1, (o' (m - 1) (Or.inr le_rfl)).2]
      refine ⟨x1, x2, ?_⟩
      have hcl := cellOf_le hm M.q p.1
      simp only [observe, if_neg (show m - 1 ≠ 0 by omega), if_pos hcl]
      rw [hlast, List.take_append_of_le_length (by omega), List.drop_append_of_le_length (by omega),
        pTotal_append, add_assoc]
      congr 2
      simp [pTotal]

theorem wpsqInit_wf {m summed : ℕ} (hm : 2 ≤ m) : (wpsqInit (K := K) m).WF m summed [] := by
  refine ⟨rfl, by simp [wpsqInit, pTotal], fun _ => by simp [wpsqInit], fun h => ?_, fun h => ?_⟩
  · simp at h; omega
  · simp at h; omega

/-- Any weights: the pushes never go wrong. -/
theorem wpsqRun_wf {m summed : ℕ} (hm : 2 ≤ m) (hsm : summed ≤ m) {desired : K → K → Res (List K)}
    (hd : ∀ n0 W, ∃ t, desired n0 W = .val (tab m t)) (ps : List (K × K)) :
    ∃ s, wpsqRun m summed desired ps = .val s ∧ s.WF m summed ps := by
  induction ps using List.reverseRecOn with
  | nil => exact ⟨_, rfl, wpsqInit_wf hm⟩
  | append_singleton ps p ih =>
    obtain ⟨s, e, I⟩ := ih
    rw [wpsqRun_snoc, e, Res.val_bind]
    exact wpsqPush_wf hm hsm hd I p

theorem wStart_all (m : ℕ) (l : List (K × K)) :
    Agree m (wStart m l) (pStart l) := by
  intro i hi
  simp [wStart, pStart, hi]

/-- Positive weights and all weights cumulated: the run is the P-square algorithm. -/
theorem wpsqRun_alg {m : ℕ} (hm : 2 ≤ m) {desired : K → K → Res (List K)} (f : ℕ → K)
    (hd : ∀ n0 W, desired n0 W = .val (tab m fun i => n0 + (W - n0) * f i)) (ps : List (K × K))
    (hw : ∀ p ∈ ps, 0 < p.2) (hl : m ≤ ps.length) :
    ∃ s, wpsqRun m m desired ps = .val s ∧
      s.heights = tab m (pRun m f (selSort m (ps.take m)) (ps.drop m)).q ∧
      s.pos = tab m (pRun m f (selSort m (ps.take m)) (ps.drop m)).n := by
  have hd' : ∀ n0 W, ∃ t, desired n0 W = .val (tab m t) := fun n0 W => ⟨_, hd n0 W⟩
  induction ps using List.reverseRecOn with
  | nil => simp at hl; omega
  | append_singleton ps p ih =>
    rcases Nat.lt_or_ge ps.length m with hlt | hge
    · obtain ⟨s, e, I⟩ := wpsqRun_wf hm le_rfl hd' (ps ++ [p])
      have hln : (ps ++ [p]).length = m := by simp at hl ⊢; omega
      obtain ⟨h1, h2⟩ := I.start hln
      refine ⟨s, e, ?_⟩
      rw [List.take_of_length_le hln.le, List.drop_of_length_le hln.le, pRun_nil, h1, h2]
      exact ⟨tab_congr fun i hi => (wStart_all m _ i hi).1, tab_congr fun i hi => (wStart_all m _ i hi).2⟩
    · obtain ⟨s, e, hh, hp⟩ := ih (fun q hq => hw q (by simp [hq])) hge
      obtain ⟨s', e', I⟩ := wpsqRun_wf hm le_rfl hd' ps
      rw [e, Res.val.injEq] at e'
      subst e'
      have hln : (ps.take m).length = m := by simp [hge]
      obtain ⟨hperm, hsort⟩ := selSort_spec m (ps.take m) hln
      have hpos : ∀ q ∈ selSort m (ps.take m) ++ ps.drop m, 0 < q.2 := by
        intro q hq
        apply hw q
        rw [List.mem_append] at hq
        rcases hq with hq | hq
        · exact List.mem_append_left _ (List.mem_of_mem_take (hperm.mem_iff.1 hq))
        · exact List.mem_append_left _ (List.mem_of_mem_drop hq)
      have G := pRun_good hm f (by rw [hperm.length_eq, hln]) hsort hpos
      have hO := observe_ord hm p.1 (hw p (by simp)) G.toOrd G.n0
      rw [wpsqRun_snoc, e, Res.val_bind, wpsqPush_later hm G.q p (by rw [I.cnt]; omega) hh hp, hd,
        Res.val_bind, psqAdjust_tab hO, Res.val_bind, Res.pure_eq]
      refine ⟨_, rfl, ?_⟩
      rw [List.take_append_of_le_length hge, List.drop_append_of_le_length hge, pRun_snoc]
      have hW : s.wsum + p.2 = pTotal (selSort m (ps.take m) ++ ps.drop m ++ [p]) := by
        have hpt : pTotal (selSort m (ps.take m)) = pTotal (ps.take m) :=
          (hperm.map Prod.snd).sum_eq
        rw [pTotal_append, pTotal_append, hpt, ← pTotal_append, List.take_append_drop, I.wsum]
        simp [pTotal]
      rw [← hW]
      exact ⟨rfl, rfl⟩

/-! ## Desired positions -/

theorem wquantileDes_eq (p n0 W : K) :
    wpsqQuantileDes p n0 W = tab 5 (fun i => n0 + (W - n0) * quantileFractions p i) := by
  simp only [wpsqQuantileDes, tab, List.range, List.range.loop, List.map, quantileFractions]
  congr 1
  · ring
  congr 1
  · ring
  congr 1
  · ring
  congr 1
  · ring
  congr 1
  ring

theorem wcumulDes_eq (b : ℕ) (n0 W : K) : ∃ t, wpsqCumulDes b n0 W = tab (b + 1) t := by
  have : (wpsqCumulDes b n0 W).length = b + 1 := by simp [wpsqCumulDes]
  exact ⟨_, by rw [← this]; exact eq_tab _ 0⟩

theorem interleave_map (g : K → K) (n0 d : K) (hg : ∀ t, g t = n0 + d * t) (l : List K) (a : K) :
    (interleave a l).map g = ((List.range l.length).map fun i =>
      [d * (((a :: l)[i]?).getD 0 + (l[i]?).getD 0) / 2 + n0, d * (l[i]?).getD 0 + n0]).flatten := by
  induction l generalizing a with
  | nil => rfl
  | cons b t ih =>
    rw [List.length_cons, List.range_succ_eq_map, List.map_cons, List.flatten_cons, List.map_map]
    simp only [interleave, List.map_cons, ih b, hg]
    simp only [List.getElem?_cons_zero, Option.getD_some, List.cons_append, List.nil_append]
    congr 1
    · ring
    congr 1
    ring

theorem interleave_append (a : K) (l r : List K) :
    interleave a (l ++ r) = interleave a l ++ interleave (l.getLast?.getD a) r := by
  induction l generalizing a with
  | nil => rfl
  | cons b t ih =>
    simp only [List.cons_append, interleave, ih]
    cases t with
    | nil => rfl
    | cons c t =>
      rw [List.getLast?_cons_cons]
      simp [List.getLast?_cons]

theorem wepsqDes_eq {ps : List K} (h0 : ps ≠ []) (n0 W : K) :
    wepsqDes ps n0 W
      = .val (tab (2 * ps.length + 3) (fun i => n0 + (W - n0) * extendedFractions ps i)) := by
  have ht : tab (2 * ps.length + 3) (fun i => n0 + (W - n0) * extendedFractions ps i)
      = (epsqIncr ps).map (fun t => n0 + (W - n0) * t) := by
    rw [extendedIncr_eq]; simp [tab]
  rw [ht]
  cases ps with
  | nil => exact absurd rfl h0
  | cons p0 t =>
    unfold wepsqDes
    have hl : getBack (p0 :: t) (p0 :: t).length 1 = .val (t.getLast?.getD p0) := by
      unfold getBack
      rw [if_pos (by simp), getAt_lt (by simp)]
      congr 1
      simp only [List.length_cons, Nat.add_sub_cancel]
      cases ht : t.getLast? with
      | none =>
        have : t = [] := by simpa using ht
        subst this; rfl
      | some v =>
        obtain ⟨ys, rfl⟩ : ∃ ys, t = ys ++ [v] := by
          have := List.getLast?_eq_some_iff.1 ht
          exact this
        simp
    rw [getAt_lt (by simp), Res.val_bind, hl, Res.val_bind,
      mapRes_val (g := fun i => [(W - n0) * (((p0 :: t)[i - 1]?).getD 0 + ((p0 :: t)[i]?).getD 0) / 2 + n0,
        (W - n0) * ((p0 :: t)[i]?).getD 0 + n0]), Res.val_bind, Res.pure_eq]
    · congr 1
      unfold epsqIncr
      simp only [List.cons_append, interleave, interleave_append, List.map_append, List.map_cons,
        List.map_nil]
      rw [interleave_map (fun t => n0 + (W - n0) * t) n0 (W - n0) (fun _ => rfl)]
      simp only [List.getElem_cons_zero, List.length_cons, Nat.add_sub_cancel, List.nil_append]
      congr 1
      · ring
      congr 1
      · ring
      congr 1
      · ring
      congr 1
      · rw [List.range'_eq_map_range, List.map_map]
        congr 1
        apply List.map_congr_left
        intro i _
        simp [Nat.add_comm 1]
      · congr 1
        · ring
        congr 1
        ring
    · intro i hi
      rw [List.mem_range'_1] at hi
      have h1 : i - 1 < (p0 :: t).length := by simp at hi ⊢; omega
      have h2 : i < (p0 :: t).length := by simp at hi ⊢; omega
      rw [getAt_lt h1, Res.val_bind, getAt_lt h2, Res.val_bind, Res.pure_eq,
        List.getElem?_eq_getElem h1, List.getElem?_eq_getElem h2]
      rfl

end Acc
