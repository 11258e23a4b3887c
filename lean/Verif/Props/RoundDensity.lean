import Verif.Proofs.RoundPsq
import Verif.Proofs.Density
import Verif.Props.Round
import Verif.Props.Density

/-!
# C64: the histogram in floating point arithmetic

The edges are rounded several times, but every rounding is monotone, so they remain ordered and the bin search
counts every sample once.
-/

set_option linter.unusedSectionVars false

namespace Acc

variable {K : Type} [Field K] [LinearOrder K] [IsStrictOrderedRing K] {R : Rounding K} {u : K}

/-- Membership in bin `i` of `B + 2` bins with lower edges `E 1, ..., E (B + 1)`: below the first edge, between two
edges, or from the last edge on. -/
def betweenEdges (E : ℕ → Fl R) (B i : ℕ) (x : Fl R) : Prop :=
  (0 < i → E i ≤ x) ∧ (i ≤ B → x < E (i + 1))

instance (E : ℕ → Fl R) (B i : ℕ) (x : Fl R) : Decidable (betweenEdges E B i x) := by
  unfold betweenEdges; infer_instance

/-- The edges as computed. -/
def flEdge (a b : Fl R) (B i : ℕ) : Fl R := a + ((i : Fl R) - 1) * ((b - a) / (B : Fl R))

theorem flEdge_mono {a b : Fl R} (hab : a ≤ b) (B : ℕ) : Monotone (flEdge a b B) := by
  intro i j h
  have hs : (0 : Fl R) ≤ (b - a) / (B : Fl R) := Fl.div_nonneg (Fl.sub_nonneg hab) (Fl.natCast_nonneg B)
  have hs' : (0 : K) ≤ ((b - a) / (B : Fl R)).val := hs
  unfold flEdge
  rw [Fl.le_iff, Fl.val_add, Fl.val_add, Fl.val_mul, Fl.val_mul, Fl.val_sub, Fl.val_sub, Fl.val_natCast, Fl.val_natCast]
  apply R.mono
  have h1 : R.rd (i : K) ≤ R.rd (j : K) := R.mono (Nat.cast_le.2 h)
  have h2 := R.mono (sub_le_sub_right h1 (1 : Fl R).val)
  have h3 := R.mono (mul_le_mul_of_nonneg_right h2 hs')
  linarith

theorem flEdge_one (a b : Fl R) (B : ℕ) : flEdge a b B 1 = a := by
  apply Fl.ext
  unfold flEdge
  rw [Fl.val_add, Fl.val_mul, Fl.val_sub, Fl.val_natCast, Nat.cast_one, R.one, Fl.val_one, sub_self, R.zero, zero_mul,
    R.zero, add_zero, Fl.rd_val]

theorem betweenEdges_unique {E : ℕ → Fl R} (hE : Monotone E) {B i j : ℕ} (hi : i ≤ B + 1) (hj : j ≤ B + 1) {x : Fl R}
    (h : betweenEdges E B i x) (h' : betweenEdges E B j x) : i = j := by
  by_contra hne
  wlog hlt : i < j generalizing i j
  · exact this hj hi h' h (fun e => hne e.symm) (by omega)
  have h1 := h.2 (by omega)
  have h2 := h'.1 (by omega)
  exact absurd (lt_of_lt_of_le h1 ((hE (show i + 1 ≤ j by omega)).trans h2)) (lt_irrefl _)

theorem binAdd_fl {E : ℕ → Fl R} (hE : Monotone E) {B : ℕ} (bins : List (Fl R)) (x inc : Fl R) :
    ∃ k, k ≤ B + 1 ∧ betweenEdges E B k x ∧
      binAdd B (tab (B + 2) E) bins x inc = modifyAt bins k (· + inc) := by
  unfold binAdd
  rw [getAt_tab _ (by omega), Res.val_bind]
  by_cases hx : x < E 1
  · exact ⟨0, by omega, ⟨by simp, fun _ => hx⟩, by rw [if_pos hx]⟩
  rw [if_neg hx, getAt_tab _ (by omega), Res.val_bind]
  by_cases hx2 : E (B + 1) ≤ x
  · exact ⟨B + 1, le_rfl, ⟨fun _ => hx2, by omega⟩, by rw [if_pos hx2]⟩
  rw [if_neg hx2]
  have hs : (tab (B + 2) E).Pairwise (· ≤ ·) := by
    unfold tab
    rw [List.pairwise_map]
    exact List.Pairwise.imp (fun h => hE h.le) List.pairwise_lt_range
  rw [upperBound_sorted hs, Res.val_bind]
  set d := (tab (B + 2) E).findIdx (fun e => decide (x < e)) with hd
  have hdl : d < (tab (B + 2) E).length := by
    rw [List.findIdx_lt_length]
    refine ⟨E (B + 1), ?_, by simpa using hx2⟩
    unfold tab
    rw [List.mem_map]
    exact ⟨B + 1, by simp, rfl⟩
  have hdx : x < E d := by
    have := List.findIdx_getElem (w := hdl)
    rw [tab_getElem] at this
    simpa using this
  have hd' : d < B + 2 := by simpa using hdl
  have hbefore : ∀ j, j < d → E j ≤ x := by
    intro j hj
    have := List.not_of_lt_findIdx hj
    rw [tab_getElem] at this
    simpa using this
  have hd2 : 2 ≤ d := by
    by_contra hcon
    exact hx (lt_of_lt_of_le hdx (hE (show d ≤ 1 by omega)))
  refine ⟨d - 1, by omega, ⟨fun _ => hbefore _ (by omega), fun _ => by rwa [show d - 1 + 1 = d by omega]⟩, ?_⟩
  obtain ⟨e, he⟩ : ∃ e, d = e + 1 := ⟨d - 1, by omega⟩
  rw [he]
  rfl

/-- Number of samples in bin `i`. -/
def flCount (E : ℕ → Fl R) (B i : ℕ) (xs : List (Fl R)) : ℕ := xs.countP fun x => decide (betweenEdges E B i x)

theorem flCount_le (E : ℕ → Fl R) (B i : ℕ) (xs : List (Fl R)) : flCount E B i xs ≤ xs.length := List.countP_le_length

theorem binAdd_count {E : ℕ → Fl R} (hE : Monotone E) {B N : ℕ} (hN : R.Counts N) (xs : List (Fl R)) (x : Fl R)
    (hx : xs.length + 1 ≤ N) :
    binAdd B (tab (B + 2) E) (tab (B + 2) fun i => ((flCount E B i xs : ℕ) : Fl R)) x 1
      = .val (tab (B + 2) fun i => ((flCount E B i (xs ++ [x]) : ℕ) : Fl R)) := by
  obtain ⟨k, hk, hin, e⟩ := binAdd_fl hE (B := B) (tab (B + 2) fun i => ((flCount E B i xs : ℕ) : Fl R)) x 1
  rw [e, modifyAt_lt (by simp; omega)]
  congr 1
  apply List.ext_getElem
  · simp
  · intro i h1 h2
    simp only [tab_length] at h2
    rw [List.getElem_set]
    simp only [tab_getElem, flCount, List.countP_append, List.countP_singleton]
    by_cases hik : k = i
    · subst hik
      rw [if_pos rfl, if_pos (by simpa using hin)]
      exact Fl.cast_add_one hN ((Nat.succ_le_succ (flCount_le E B k xs)).trans hx)
    · rw [if_neg hik, if_neg, add_zero]
      simpa using fun h => hik (betweenEdges_unique hE hk (by omega) hin h)

theorem foldRes_count {E : ℕ → Fl R} (hE : Monotone E) {B N : ℕ} (hN : R.Counts N) (xs ys : List (Fl R))
    (hx : xs.length + ys.length ≤ N) :
    foldRes (fun bins y => binAdd B (tab (B + 2) E) bins y 1) (tab (B + 2) fun i => ((flCount E B i xs : ℕ) : Fl R)) ys
      = .val (tab (B + 2) fun i => ((flCount E B i (xs ++ ys) : ℕ) : Fl R)) := by
  induction ys generalizing xs with
  | nil => simp [foldRes]
  | cons y ys ih =>
    simp only [List.length_cons] at hx
    simp only [foldRes]
    rw [binAdd_count hE hN xs y (by omega), Res.val_bind, ih (xs ++ [y]) (by simp; omega)]
    simp

theorem flCount_nil (E : ℕ → Fl R) (B : ℕ) :
    (tab (B + 2) fun i => ((flCount E B i [] : ℕ) : Fl R)) = List.replicate (B + 2) 0 := by
  apply List.ext_getElem
  · simp
  · intro i _ _
    rw [tab_getElem, List.getElem_replicate]
    apply Fl.ext
    rw [Fl.val_natCast]
    simp [flCount, R.zero]

/-- Least and greatest of the first `c` samples as the set computes them. -/
def flMin (hi : Fl R) (c : ℕ) (xs : List (Fl R)) : Fl R := minRun ltb hi (xs.take c)
def flMax (lo : Fl R) (c : ℕ) (xs : List (Fl R)) : Fl R := maxRun ltb lo (xs.take c)

structure DensitySt.FlInv (lo hi : Fl R) (c B : ℕ) (s : DensitySt (Fl R)) (xs : List (Fl R)) : Prop where
  cnt : s.cnt = xs.length
  mn : s.mn = minRun ltb hi xs
  mx : s.mx = maxRun ltb lo xs
  cs : s.cacheSize = c
  nb : s.numBins = B
  clen : s.cache.length = c
  cache : s.cache.take xs.length = xs.take c
  before : xs.length < c → s.bins = List.replicate (B + 2) 0 ∧ s.pos = List.replicate (B + 2) 0
  after : c ≤ xs.length → s.pos = tab (B + 2) (flEdge (flMin hi c xs) (flMax lo c xs) B) ∧
    s.bins = tab (B + 2) fun i => ((flCount (flEdge (flMin hi c xs) (flMax lo c xs) B) B i xs : ℕ) : Fl R)
  hist : s.dirty = false → ∃ s' : DensitySt (Fl R), densityQuery { s with dirty := true } = .val (s', s.hist)

theorem flMin_le_flMax {lo hi : Fl R} {c : ℕ} {xs : List (Fl R)} (hc : 0 < c) (hne : xs ≠ [])
    (hlim : ∀ x ∈ xs, lo ≤ x ∧ x ≤ hi) : flMin hi c xs ≤ flMax lo c xs := by
  have hne' : xs.take c ≠ [] := by simp [hc.ne', hne]
  have h1 := C09_min hi _ hne' (fun x hx => (hlim x (List.mem_of_mem_take hx)).2)
  have h2 := C09_max lo _ hne' (fun x hx => (hlim x (List.mem_of_mem_take hx)).1)
  exact h2.2 h1.1

theorem Fl.fdiv_one (a : Fl R) : fdiv a 1 = .val a := by
  have : (1 : Fl R) ≠ 0 := by
    intro h
    rw [Fl.eq_zero_iff, Fl.val_one] at h
    exact one_ne_zero h
  unfold fdiv
  rw [if_neg this]
  congr 1
  apply Fl.ext
  rw [Fl.val_div, Fl.val_one, div_one, Fl.rd_val]

theorem Fl.natCast_ne_zero {n : ℕ} (h : 0 < n) : (n : Fl R) ≠ 0 := by
  intro e
  rw [Fl.eq_zero_iff, Fl.val_natCast] at e
  have : R.rd (1 : K) ≤ R.rd (n : K) := R.mono (by exact_mod_cast h)
  rw [R.one, e] at this
  linarith [zero_lt_one (α := K)]

theorem densityInit_fl (lo hi : Fl R) {c B : ℕ} (hc : 0 < c) (x0 : Fl R) :
    (densityInit lo hi c B x0).FlInv lo hi c B [] where
  cnt := rfl
  mn := rfl
  mx := rfl
  cs := rfl
  nb := rfl
  clen := by simp [densityInit]
  cache := by simp
  before := fun _ => ⟨rfl, rfl⟩
  after := fun h => by simp at h; omega
  hist := fun h => by simp [densityInit] at h

theorem densityPush_fl {lo hi : Fl R} {c B N : ℕ} (hB : 0 < B) (hN : R.Counts N) {s : DensitySt (Fl R)}
    {xs : List (Fl R)} (x : Fl R) (hlim : ∀ y ∈ xs ++ [x], lo ≤ y ∧ y ≤ hi) (hc : 0 < c) (hx : xs.length + 1 ≤ N)
    (I : s.FlInv lo hi c B xs) : ∃ s', densityPush s x = .val s' ∧ s'.FlInv lo hi c B (xs ++ [x]) := by
  have hmn : minAssign ltb s.mn x = minRun ltb hi (xs ++ [x]) := by
    rw [I.mn]; simp [minRun]
  have hmx : maxAssign ltb s.mx x = maxRun ltb lo (xs ++ [x]) := by
    rw [I.mx]; simp [maxRun]
  unfold densityPush densityStep
  simp only [I.cs, I.nb, I.cnt]
  rcases lt_trichotomy (xs.length + 1) c with h | h | h
  · rw [if_pos h.le, setAt_lt (by rw [I.clen]; omega), Res.val_bind, if_neg h.ne, if_neg (by omega)]
    refine ⟨_, rfl, ?_⟩
    refine ⟨by simp, hmn, hmx, rfl, rfl, by simp [I.clen], ?_, ?_, ?_, by simp⟩
    · simp only [List.length_append, List.length_singleton, Nat.add_sub_cancel]
      rw [List.take_of_length_le (l := xs ++ [x]) (by simp; omega)]
      have := I.cache
      rw [List.take_of_length_le (l := xs) (by omega)] at this
      rw [List.take_add_one, List.take_set_of_le (le_refl _), this]
      simp [I.clen, show xs.length < c by omega]
    · intro _
      exact I.before (by omega)
    · intro h'
      simp at h'; omega
  · have hab := flMin_le_flMax (c := c) hc (by simp) hlim
    rw [if_pos h.le, setAt_lt (by rw [I.clen]; omega), Res.val_bind, if_pos h]
    have hcache : s.cache.set (xs.length + 1 - 1) x = xs ++ [x] := by
      have h1 : (s.cache.set xs.length x).take (xs.length + 1) = xs ++ [x] := by
        have := I.cache
        rw [List.take_of_length_le (l := xs) (by omega)] at this
        rw [List.take_add_one, List.take_set_of_le (le_refl _), this]
        simp [I.clen, show xs.length < c by omega]
      rw [List.take_of_length_le (by simp [I.clen]; omega)] at h1
      simpa using h1
    have htake : (xs ++ [x]).take c = xs ++ [x] := List.take_of_length_le (by simp; omega)
    have e1 : minAssign ltb s.mn x = flMin hi c (xs ++ [x]) := by rw [hmn, flMin, htake]
    have e2 : maxAssign ltb s.mx x = flMax lo c (xs ++ [x]) := by rw [hmx, flMax, htake]
    rw [hcache, (I.before (by omega)).1,
      ← flCount_nil (flEdge (flMin hi c (xs ++ [x])) (flMax lo c (xs ++ [x])) B)]
    have hf : ∀ a : Fl R, fdiv a (B : Fl R) = .val (a / (B : Fl R)) := fun a => if_neg (Fl.natCast_ne_zero hB)
    simp only [Fl.fdiv_one, Res.val_bind, hf, e1, e2, Res.pure_eq]
    have := foldRes_count (flEdge_mono hab B) (B := B) hN [] (xs ++ [x]) (by simpa using hx)
    rw [show binPositions B (flMin hi c (xs ++ [x]))
        ((flMax lo c (xs ++ [x]) - flMin hi c (xs ++ [x])) / (B : Fl R)) =
        tab (B + 2) (flEdge (flMin hi c (xs ++ [x])) (flMax lo c (xs ++ [x])) B) from rfl, this]
    refine ⟨_, rfl, ?_⟩
    refine ⟨by simp, ?_, ?_, rfl, rfl, by simp; omega, ?_, ?_, ?_, by simp⟩
    · exact e1.symm.trans hmn
    · exact e2.symm.trans hmx
    · rw [htake, List.take_of_length_le (le_refl _)]
    · intro h'; simp at h'; omega
    · intro _
      exact ⟨rfl, by simp⟩
  · have hcl : c ≤ xs.length := by omega
    have hne : xs ≠ [] := by rintro rfl; simp at hcl; omega
    have hab := flMin_le_flMax (c := c) hc hne (fun q hq => hlim q (List.mem_append_left _ hq))
    rw [if_neg (by omega), Res.val_bind, if_neg (by omega), if_pos h, (I.after hcl).1, (I.after hcl).2,
      binAdd_count (flEdge_mono hab B) hN xs x hx]
    have em : flMin hi c (xs ++ [x]) = flMin hi c xs := by rw [flMin, take_snoc_of_le x hcl, flMin]
    have eM : flMax lo c (xs ++ [x]) = flMax lo c xs := by rw [flMax, take_snoc_of_le x hcl, flMax]
    refine ⟨_, rfl, ?_⟩
    refine ⟨by simp, hmn, hmx, rfl, rfl, I.clen, ?_, ?_, ?_, by simp⟩
    · have h0 := I.cache
      rw [List.take_of_length_le (by rw [I.clen]; omega)] at h0
      rw [List.take_of_length_le (by rw [I.clen]; simp; omega), take_snoc_of_le x hcl]; exact h0
    · intro h'; simp at h'; omega
    · intro _
      rw [em, eM]
      exact ⟨rfl, rfl⟩

theorem DensitySt.FlInv.len {lo hi : Fl R} {c B : ℕ} {s : DensitySt (Fl R)} {xs : List (Fl R)}
    (I : s.FlInv lo hi c B xs) : s.pos.length = B + 2 ∧ s.bins.length = B + 2 := by
  rcases Nat.lt_or_ge xs.length c with h | h
  · obtain ⟨h1, h2⟩ := I.before h
    rw [h1, h2]; simp
  · obtain ⟨h1, h2⟩ := I.after h
    rw [h1, h2]; simp

theorem densityQuery_fl {lo hi : Fl R} {c B : ℕ} {s : DensitySt (Fl R)} {xs : List (Fl R)} (I : s.FlInv lo hi c B xs) :
    ∃ s', densityQuery s = .val (s', tab (B + 2) fun i =>
        ((s.pos[i]?).getD 0, fdiv ((s.bins[i]?).getD 0) (s.cnt : Fl R))) ∧ s'.FlInv lo hi c B xs := by
  have key : mapRes (fun i => do
        let p ← getAt s.pos i
        let b ← getAt s.bins i
        pure (p, fdiv b (s.cnt : Fl R))) (List.range (s.numBins + 2)) = .val (tab (B + 2) fun i =>
        ((s.pos[i]?).getD 0, fdiv ((s.bins[i]?).getD 0) (s.cnt : Fl R))) := by
    rw [I.nb, mapRes_val]
    · rfl
    · intro i hi
      have hi := List.mem_range.1 hi
      have i1 : i < s.pos.length := by rw [I.len.1]; exact hi
      have i2 : i < s.bins.length := by rw [I.len.2]; exact hi
      simp [getAt_lt i1, getAt_lt i2, i1, i2]
  by_cases hd : s.dirty = true
  · unfold densityQuery
    rw [if_pos hd, key]
    refine ⟨_, rfl, I.cnt, I.mn, I.mx, I.cs, I.nb, I.clen, I.cache, I.before, I.after, fun _ => ?_⟩
    exact ⟨_, by unfold densityQuery; rw [if_pos rfl, key]; rfl⟩
  · obtain ⟨s', h⟩ := I.hist (by simpa using hd)
    have h' := h
    unfold densityQuery at h ⊢
    rw [if_pos rfl, key] at h
    rw [if_neg hd]
    refine ⟨s, ?_, I⟩
    simp only [Res.val_bind, Res.pure_eq, Res.val.injEq, Prod.mk.injEq] at h
    rw [h.2]
    rfl

/-- **C64** Once the cache is full, `density` lists for each bin its computed lower edge and the correctly rounded
quotient of the exact number of samples between the computed edges and the number of samples; the edges are
non-decreasing and the first proper one is the least cached sample. -/
theorem C64_density {lo hi : Fl R} {c B : ℕ} (hB : 0 < B) (x0 : Fl R) (h : List (Op (Fl R) Unit))
    (hlim : ∀ x ∈ pushes h, lo ≤ x ∧ x ≤ hi) (hfull : c ≤ (pushes h).length) (hN : R.Counts (pushes h).length)
    {a b : Fl R} (ha : IsLeast {x | x ∈ (pushes h).take c} a) (hb : IsGreatest {x | x ∈ (pushes h).take c} b) :
    ∃ (E : ℕ → Fl R) (q : ℕ → Fl R),
      (densitySet lo hi c B x0).answer h () = .val ((List.range (B + 2)).map fun i => (E i, .val (q i))) ∧
      Monotone E ∧ E 1 = a ∧ (∀ i, E i = a + ((i : Fl R) - 1) * ((b - a) / (B : Fl R))) ∧
      ∀ i, (q i).val = R.rd (((pushes h).countP fun x => decide ((0 < i → E i ≤ x) ∧ (i ≤ B → x < E (i + 1))) : ℕ)
        / ((pushes h).length : K)) := by
  have hc : 0 < c := by
    rcases Nat.eq_zero_or_pos c with rfl | hc
    · simp [IsLeast] at ha
    · exact hc
  obtain ⟨s, e, I⟩ : ∃ s, (densitySet lo hi c B x0).exec (densityInit lo hi c B x0) h = .val s ∧
      s.FlInv lo hi c B (pushes h) := by
    have gen : ∀ (g : List (Op (Fl R) Unit)) s xs, s.FlInv lo hi c B xs → xs ++ pushes g = pushes h →
        ∃ s', (densitySet lo hi c B x0).exec s g = .val s' ∧ s'.FlInv lo hi c B (xs ++ pushes g) := by
      intro g
      induction g with
      | nil => exact fun s xs I _ => ⟨s, rfl, by simpa [pushes] using I⟩
      | cons o os ih =>
        intro s xs I hg
        cases o with
        | push x =>
          have hl : xs.length + 1 ≤ (pushes h).length := by
            rw [← hg]; simp [pushes]
          obtain ⟨s', e, I'⟩ := densityPush_fl hB hN x (fun y hy => hlim y (by
            rw [← hg]; simp [pushes] at hy ⊢; tauto)) hc hl I
          obtain ⟨s'', e', I''⟩ := ih s' (xs ++ [x]) I' (by simpa [pushes] using hg)
          refine ⟨s'', ?_, by simpa [pushes] using I''⟩
          simp only [RMachine.exec, RMachine.exec1]
          change (densityPush s x >>= _) = _
          rw [e, Res.val_bind, e']
        | query q =>
          obtain ⟨s', e, I'⟩ := densityQuery_fl I
          obtain ⟨s'', e', I''⟩ := ih s' xs I' (by simpa [pushes] using hg)
          refine ⟨s'', ?_, by simpa [pushes] using I''⟩
          simp only [RMachine.exec, RMachine.exec1]
          change ((densityQuery s >>= _) >>= _) = _
          rw [e, Res.val_bind, Res.pure_eq, Res.val_bind, e']
    simpa using gen h _ [] (densityInit_fl lo hi hc x0) (by simp)
  have hne : (pushes h).take c ≠ [] := List.ne_nil_of_mem ha.1
  have ea : flMin hi c (pushes h) = a :=
    (C09_min hi _ hne (fun x hx => (hlim x (List.mem_of_mem_take hx)).2)).unique ha
  have eb : flMax lo c (pushes h) = b :=
    (C09_max lo _ hne (fun x hx => (hlim x (List.mem_of_mem_take hx)).1)).unique hb
  obtain ⟨hpos, hbins⟩ := I.after hfull
  rw [ea, eb] at hpos hbins
  have hn : 0 < (pushes h).length := by omega
  refine ⟨flEdge a b B, fun i => ((flCount (flEdge a b B) B i (pushes h) : ℕ) : Fl R) / ((pushes h).length : Fl R), ?_,
    flEdge_mono (hb.2 ha.1) B, flEdge_one a b B, fun i => rfl, fun i => ?_⟩
  · obtain ⟨s', e', _⟩ := densityQuery_fl I
    unfold RMachine.answer
    change ((densitySet lo hi c B x0).exec (densityInit lo hi c B x0) h >>= fun s => densityQuery s >>= _) = _
    rw [e, Res.val_bind, e', Res.val_bind, Res.pure_eq, hpos, hbins, I.cnt]
    congr 1
    unfold tab
    apply List.map_congr_left
    intro i hi
    have hi := List.mem_range.1 hi
    simp [hi, fdiv, Fl.natCast_ne_zero hn]
  · rw [Fl.val_div, Fl.val_natCast, Fl.val_natCast, hN _ le_rfl, hN _ (flCount_le _ _ _ _)]
    rfl

/-- **C64** With edges in order every value belongs to exactly one of the `B + 2` bins, so the exact counts of
`C64_density` sum to the number of samples. -/
theorem C64_total {E : ℕ → Fl R} (hE : Monotone E) (B : ℕ) (xs : List (Fl R)) :
    ((List.range (B + 2)).map fun i =>
      xs.countP fun x => decide ((0 < i → E i ≤ x) ∧ (i ≤ B → x < E (i + 1)))).sum = xs.length := by
  rw [sum_range_eq]
  induction xs with
  | nil => simp
  | cons x xs ih =>
    simp only [List.countP_cons, Finset.sum_add_distrib, ih, List.length_cons]
    congr 1
    obtain ⟨k, hk, hin, -⟩ := binAdd_fl hE (B := B) [] x 0
    rw [Finset.sum_eq_single k]
    · exact if_pos (decide_eq_true hin)
    · intro j hj hne
      rw [if_neg]
      simp only [decide_eq_true_eq]
      exact fun h => hne (betweenEdges_unique hE (by simp at hj; omega) hk h hin)
    · intro h
      simp at h; omega

/-- **C64** The reported fractions sum to 1 up to one relative rounding error. -/
theorem C64_fractions (hu : R.RelErr u) {E : ℕ → Fl R} (hE : Monotone E) (B : ℕ) (xs : List (Fl R)) (hne : xs ≠ [])
    (q : ℕ → Fl R)
    (hq : ∀ i, (q i).val = R.rd ((xs.countP fun x => decide ((0 < i → E i ≤ x) ∧ (i ≤ B → x < E (i + 1))) : ℕ)
        / (xs.length : K))) :
    (∀ i, 0 ≤ (q i).val ∧ (q i).val ≤ 1) ∧ |((List.range (B + 2)).map fun i => (q i).val).sum - 1| ≤ u := by
  have hn : (0 : K) < (xs.length : K) := by exact_mod_cast List.length_pos_iff.2 hne
  set c : ℕ → ℕ := fun i => xs.countP fun x => decide ((0 < i → E i ≤ x) ∧ (i ≤ B → x < E (i + 1))) with hc
  have hq' : ∀ i, (q i).val = R.rd ((c i : K) / (xs.length : K)) := hq
  constructor
  · intro i
    rw [hq']
    refine ⟨R.nonneg (_root_.div_nonneg (Nat.cast_nonneg _) hn.le), ?_⟩
    rw [← R.one]
    apply R.mono
    rw [div_le_one hn]
    exact_mod_cast List.countP_le_length
  · have ht : ∑ i ∈ Finset.range (B + 2), (c i : K) / (xs.length : K) = 1 := by
      have := C64_total hE B xs
      rw [sum_range_eq] at this
      rw [← Finset.sum_div, ← Nat.cast_sum, this, div_self hn.ne']
    rw [sum_range_eq]
    calc |∑ i ∈ Finset.range (B + 2), (q i).val - 1|
        = |∑ i ∈ Finset.range (B + 2), ((q i).val - (c i : K) / (xs.length : K))| := by
          rw [Finset.sum_sub_distrib, ht]
      _ ≤ ∑ i ∈ Finset.range (B + 2), |(q i).val - (c i : K) / (xs.length : K)| := Finset.abs_sum_le_sum_abs _ _
      _ ≤ ∑ i ∈ Finset.range (B + 2), u * ((c i : K) / (xs.length : K)) := by
          apply Finset.sum_le_sum
          intro i _
          rw [hq' i]
          refine (hu _).trans_eq ?_
          rw [abs_of_nonneg (_root_.div_nonneg (Nat.cast_nonneg _) hn.le)]
      _ = u := by rw [← Finset.mul_sum, ht, mul_one]

/-- **C64** The greatest cached sample need not be in the overflow bin, where exact arithmetic puts it: with 11 bins
between the `double`s 0 and 0.1 the last computed edge is above 0.1. -/
theorem C64_max_not_in_overflow :
    let R := double
    let h : List (Op (Fl R) Unit) := onlyPushes ([0, 1 / 10].map (Fl.ofK R))
    ∃ E : List (Fl R), (densitySet (Fl.ofK R (-100)) (Fl.ofK R 100) 2 11 0).answer h ()
      = .val (E.zip (([0, 1 / 2, 0, 0, 0, 0, 0, 0, 0, 0, 0, 1 / 2, 0].map (Fl.ofK R)).map Res.val)) :=
  ⟨tab 13 (flEdge (Fl.ofK double 0) (Fl.ofK double (1 / 10)) 11), by decide +kernel⟩

/-- The same data in exact arithmetic: the greatest one is in the overflow bin. -/
example : (densitySet (-100 : ℚ) 100 2 11 0).answer (onlyPushes [0, 1 / 10]) ()
    = .val (((List.range 13).map fun i : ℕ => (-1 + (i : ℚ)) / 110).zip
        ([0, 1 / 2, 0, 0, 0, 0, 0, 0, 0, 0, 0, 0, 1 / 2].map Res.val)) := by
  decide +kernel

/-- Four `double`s, two of them cached, two bins. -/
example :
    let h : List (Op (Fl double) Unit) := onlyPushes ([1 / 10, 7 / 10, 3 / 10, 9 / 10].map (Fl.ofK double))
    ∃ (E : ℕ → Fl double) (q : ℕ → Fl double),
      (densitySet (Fl.ofK double (-100)) (Fl.ofK double 100) 2 2 0).answer h ()
        = .val ((List.range 4).map fun i => (E i, .val (q i))) ∧ Monotone E := by
  intro h
  obtain ⟨E, q, e, hE, -⟩ := C64_density (lo := Fl.ofK double (-100)) (hi := Fl.ofK double 100) (c := 2) (B := 2)
    (by norm_num) 0 h (by decide +kernel) (by simp [h, pushes, onlyPushes])
    (double_counts (by simp [h, pushes, onlyPushes])) (a := Fl.ofK double (1 / 10)) (b := Fl.ofK double (7 / 10))
    ⟨by simp [h, pushes, onlyPushes], by
      show ∀ x, x ∈ (pushes h).take 2 → _
      decide +kernel⟩
    ⟨by simp [h, pushes, onlyPushes], by
      show ∀ x, x ∈ (pushes h).take 2 → _
      decide +kernel⟩
  exact ⟨E, q, e, hE⟩

end Acc
