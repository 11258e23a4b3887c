import Verif.Props.RoundDensity
import Verif.Props.RoundWeighted

/-!
# C86: the weighted histogram in floating point arithmetic

`weighted_density.hpp`.  The bins hold sums of weights, which are rounded after every addition; no bound on the number of
samples is needed because nothing is counted.
-/

set_option linter.unusedSectionVars false

namespace Acc

variable {K : Type} [Field K] [LinearOrder K] [IsStrictOrderedRing K] {R : Rounding K} {u : K}

/-- The weights in `ps` of the samples in bin `i`, added in order of arrival. -/
def flWeight (E : ℕ → Fl R) (B i : ℕ) (ps : List (Fl R × Fl R)) : Fl R :=
  ((ps.filter fun p => decide (betweenEdges E B i p.1)).map Prod.snd).foldl (· + ·) 0

theorem binAdd_weight {E : ℕ → Fl R} (hE : Monotone E) {B : ℕ} (ps : List (Fl R × Fl R)) (p : Fl R × Fl R) :
    binAdd B (tab (B + 2) E) (tab (B + 2) fun i => flWeight E B i ps) p.1 p.2
      = .val (tab (B + 2) fun i => flWeight E B i (ps ++ [p])) := by
  obtain ⟨k, hk, hin, e⟩ := binAdd_fl hE (B := B) (tab (B + 2) fun i => flWeight E B i ps) p.1 p.2
  rw [e, modifyAt_lt (by simp; omega)]
  congr 1
  apply List.ext_getElem
  · simp
  · intro i h1 h2
    simp only [tab_length] at h2
    rw [List.getElem_set]
    simp only [tab_getElem, flWeight, List.filter_append]
    by_cases hik : k = i
    · subst hik
      rw [if_pos rfl, List.filter_cons_of_pos (by simpa using hin)]
      simp
    · rw [if_neg hik, List.filter_cons_of_neg]
      · simp
      · simpa using fun h => hik (betweenEdges_unique hE hk (by omega) hin h)

theorem foldRes_weight {E : ℕ → Fl R} (hE : Monotone E) {B : ℕ} (ps qs : List (Fl R × Fl R)) :
    foldRes (fun bins (q : Fl R × Fl R) => binAdd B (tab (B + 2) E) bins q.1 q.2)
        (tab (B + 2) fun i => flWeight E B i ps) qs
      = .val (tab (B + 2) fun i => flWeight E B i (ps ++ qs)) := by
  induction qs generalizing ps with
  | nil => simp [foldRes]
  | cons q qs ih =>
    simp only [foldRes]
    rw [binAdd_weight hE ps q, Res.val_bind, ih (ps ++ [q])]
    simp

theorem flWeight_nil (E : ℕ → Fl R) (B : ℕ) :
    (tab (B + 2) fun i => flWeight E B i []) = List.replicate (B + 2) 0 := by
  apply List.ext_getElem
  · simp
  · intro i _ _
    rw [tab_getElem, List.getElem_replicate]
    rfl

structure WDensitySt.FlInv (lo hi : Fl R) (c B : ℕ) (s : WDensitySt (Fl R)) (ps : List (Fl R × Fl R)) : Prop where
  cnt : s.cnt = ps.length
  wsum : s.wsum = (ps.map Prod.snd).foldl (· + ·) 0
  mn : s.mn = minRun ltb hi (ps.map Prod.fst)
  mx : s.mx = maxRun ltb lo (ps.map Prod.fst)
  cs : s.cacheSize = c
  nb : s.numBins = B
  clen : s.cache.length = c
  cache : s.cache.take ps.length = ps.take c
  before : ps.length < c → s.bins = List.replicate (B + 2) 0 ∧ s.pos = List.replicate (B + 2) 0
  after : c ≤ ps.length →
    s.pos = tab (B + 2) (flEdge (flMin hi c (ps.map Prod.fst)) (flMax lo c (ps.map Prod.fst)) B) ∧
    s.bins = tab (B + 2) fun i =>
      flWeight (flEdge (flMin hi c (ps.map Prod.fst)) (flMax lo c (ps.map Prod.fst)) B) B i ps
  hist : s.dirty = false → ∃ s' : WDensitySt (Fl R), wdensityQuery { s with dirty := true } = .val (s', s.hist)

theorem wdensityInit_fl (lo hi : Fl R) {c B : ℕ} (hc : 0 < c) (x0 : Fl R) :
    (wdensityInit lo hi c B x0).FlInv lo hi c B [] where
  cnt := rfl
  wsum := rfl
  mn := rfl
  mx := rfl
  cs := rfl
  nb := rfl
  clen := by simp [wdensityInit]
  cache := by simp
  before := fun _ => ⟨rfl, rfl⟩
  after := fun h => by simp at h; omega
  hist := fun h => by simp [wdensityInit] at h

theorem wdensityPush_fl {lo hi : Fl R} {c B : ℕ} (hB : 0 < B) {s : WDensitySt (Fl R)}
    {ps : List (Fl R × Fl R)} (p : Fl R × Fl R) (hlim : ∀ q ∈ ps ++ [p], lo ≤ q.1 ∧ q.1 ≤ hi) (hc : 0 < c)
    (I : s.FlInv lo hi c B ps) : ∃ s', wdensityPush s p = .val s' ∧ s'.FlInv lo hi c B (ps ++ [p]) := by
  have hlim' : ∀ y ∈ (ps ++ [p]).map Prod.fst, lo ≤ y ∧ y ≤ hi := List.forall_mem_map.2 hlim
  have hw : sumStep s.wsum p.2 = ((ps ++ [p]).map Prod.snd).foldl (· + ·) 0 := by
    rw [I.wsum]; simp [sumStep]
  have hmn : minAssign ltb s.mn p.1 = minRun ltb hi ((ps ++ [p]).map Prod.fst) := by
    rw [I.mn]; simp [minRun]
  have hmx : maxAssign ltb s.mx p.1 = maxRun ltb lo ((ps ++ [p]).map Prod.fst) := by
    rw [I.mx]; simp [maxRun]
  unfold wdensityPush wdensityStep
  simp only [I.cs, I.nb, I.cnt]
  rcases lt_trichotomy (ps.length + 1) c with h | h | h
  · rw [if_pos h.le, setAt_lt (by rw [I.clen]; omega), Res.val_bind, if_neg h.ne, if_neg (by omega)]
    refine ⟨_, rfl, ?_⟩
    refine ⟨by simp, hw, hmn, hmx, rfl, rfl, by simp [I.clen], ?_, ?_, ?_, by simp⟩
    · simp only [List.length_append, List.length_singleton, Nat.add_sub_cancel]
      rw [List.take_of_length_le (l := ps ++ [p]) (by simp; omega)]
      have := I.cache
      rw [List.take_of_length_le (l := ps) (by omega)] at this
      rw [List.take_add_one, List.take_set_of_le (le_refl _), this]
      simp [I.clen, show ps.length < c by omega]
    · intro _
      exact I.before (by omega)
    · intro h'
      simp at h'; omega
  · have hab := flMin_le_flMax (c := c) hc (by simp) hlim'
    rw [if_pos h.le, setAt_lt (by rw [I.clen]; omega), Res.val_bind, if_pos h]
    have hcache : s.cache.set (ps.length + 1 - 1) p = ps ++ [p] := by
      have h1 : (s.cache.set ps.length p).take (ps.length + 1) = ps ++ [p] := by
        have := I.cache
        rw [List.take_of_length_le (l := ps) (by omega)] at this
        rw [List.take_add_one, List.take_set_of_le (le_refl _), this]
        simp [I.clen, show ps.length < c by omega]
      rw [List.take_of_length_le (by simp [I.clen]; omega)] at h1
      simpa using h1
    have htake : ((ps ++ [p]).map Prod.fst).take c = (ps ++ [p]).map Prod.fst :=
      List.take_of_length_le (by simp; omega)
    have e1 : minAssign ltb s.mn p.1 = flMin hi c ((ps ++ [p]).map Prod.fst) := by rw [hmn, flMin, htake]
    have e2 : maxAssign ltb s.mx p.1 = flMax lo c ((ps ++ [p]).map Prod.fst) := by rw [hmx, flMax, htake]
    set a := flMin hi c ((ps ++ [p]).map Prod.fst) with ha
    set b := flMax lo c ((ps ++ [p]).map Prod.fst) with hb
    rw [hcache, (I.before (by omega)).1, ← flWeight_nil (flEdge a b B)]
    have hf : ∀ a : Fl R, fdiv a (B : Fl R) = .val (a / (B : Fl R)) := fun a => if_neg (Fl.natCast_ne_zero hB)
    simp only [Fl.fdiv_one, Res.val_bind, hf, e1, e2, Res.pure_eq]
    have := foldRes_weight (flEdge_mono hab B) (B := B) [] (ps ++ [p])
    rw [show binPositions B a ((b - a) / (B : Fl R)) = tab (B + 2) (flEdge a b B) from rfl, this]
    refine ⟨_, rfl, ?_⟩
    refine ⟨by simp, hw, ?_, ?_, rfl, rfl, by simp; omega, ?_, ?_, ?_, by simp⟩
    · exact e1.symm.trans hmn
    · exact e2.symm.trans hmx
    · rw [List.take_of_length_le (l := ps ++ [p]) (i := c) (by simp; omega), List.take_of_length_le (le_refl _)]
    · intro h'; simp at h'; omega
    · intro _
      exact ⟨rfl, by simp [ha, hb]⟩
  · have hcl : c ≤ ps.length := by omega
    have hcl' : c ≤ (ps.map Prod.fst).length := by simpa using hcl
    have hne : ps.map Prod.fst ≠ [] := by
      intro e
      rw [e] at hcl'
      simp at hcl'; omega
    have hab := flMin_le_flMax (c := c) hc hne (fun q hq => hlim' q (by
      rw [List.map_append]; exact List.mem_append_left _ hq))
    rw [if_neg (by omega), Res.val_bind, if_neg (by omega), if_pos h, (I.after hcl).1, (I.after hcl).2,
      binAdd_weight (flEdge_mono hab B) ps p]
    have em : flMin hi c ((ps ++ [p]).map Prod.fst) = flMin hi c (ps.map Prod.fst) := by
      rw [flMin, List.map_append, List.map_singleton, take_snoc_of_le p.1 hcl', flMin]
    have eM : flMax lo c ((ps ++ [p]).map Prod.fst) = flMax lo c (ps.map Prod.fst) := by
      rw [flMax, List.map_append, List.map_singleton, take_snoc_of_le p.1 hcl', flMax]
    refine ⟨_, rfl, ?_⟩
    refine ⟨by simp, hw, hmn, hmx, rfl, rfl, I.clen, ?_, ?_, ?_, by simp⟩
    · have h0 := I.cache
      rw [List.take_of_length_le (by rw [I.clen]; omega)] at h0
      rw [List.take_of_length_le (by rw [I.clen]; simp; omega), take_snoc_of_le p hcl]; exact h0
    · intro h'; simp at h'; omega
    · intro _
      rw [em, eM]
      exact ⟨rfl, rfl⟩

theorem WDensitySt.FlInv.len {lo hi : Fl R} {c B : ℕ} {s : WDensitySt (Fl R)} {ps : List (Fl R × Fl R)}
    (I : s.FlInv lo hi c B ps) : s.pos.length = B + 2 ∧ s.bins.length = B + 2 := by
  rcases Nat.lt_or_ge ps.length c with h | h
  · obtain ⟨h1, h2⟩ := I.before h
    rw [h1, h2]; simp
  · obtain ⟨h1, h2⟩ := I.after h
    rw [h1, h2]; simp

theorem wdensityQuery_fl {lo hi : Fl R} {c B : ℕ} {s : WDensitySt (Fl R)} {ps : List (Fl R × Fl R)}
    (I : s.FlInv lo hi c B ps) :
    ∃ s', wdensityQuery s = .val (s', tab (B + 2) fun i =>
        ((s.pos[i]?).getD 0, fdiv ((s.bins[i]?).getD 0) s.wsum)) ∧ s'.FlInv lo hi c B ps := by
  have key : mapRes (fun i => do
        let p ← getAt s.pos i
        let b ← getAt s.bins i
        pure (p, fdiv b s.wsum)) (List.range (s.numBins + 2)) = .val (tab (B + 2) fun i =>
        ((s.pos[i]?).getD 0, fdiv ((s.bins[i]?).getD 0) s.wsum)) := by
    rw [I.nb, mapRes_val]
    · rfl
    · intro i hi
      have hi := List.mem_range.1 hi
      have i1 : i < s.pos.length := by rw [I.len.1]; exact hi
      have i2 : i < s.bins.length := by rw [I.len.2]; exact hi
      simp [getAt_lt i1, getAt_lt i2, i1, i2]
  by_cases hd : s.dirty = true
  · unfold wdensityQuery
    rw [if_pos hd, key]
    refine ⟨_, rfl, I.cnt, I.wsum, I.mn, I.mx, I.cs, I.nb, I.clen, I.cache, I.before, I.after, fun _ => ?_⟩
    exact ⟨_, by unfold wdensityQuery; rw [if_pos rfl, key]; rfl⟩
  · obtain ⟨s', h⟩ := I.hist (by simpa using hd)
    unfold wdensityQuery at h ⊢
    rw [if_pos rfl, key] at h
    rw [if_neg hd]
    refine ⟨s, ?_, I⟩
    simp only [Res.val_bind, Res.pure_eq, Res.val.injEq, Prod.mk.injEq] at h
    rw [h.2]
    rfl

/-- **C86** Once the cache is full, `weighted_density` lists for each bin its computed lower edge and the quotient of the
running sum of the weights of exactly the samples between the computed edges by the running sum of all weights; the
edges are non-decreasing and the first proper one is the least cached sample. -/
theorem C86_density {lo hi : Fl R} {c B : ℕ} (hB : 0 < B) (x0 : Fl R) (h : List (Op (Fl R × Fl R) Unit))
    (hlim : ∀ p ∈ pushes h, lo ≤ p.1 ∧ p.1 ≤ hi) (hfull : c ≤ (pushes h).length)
    {a b : Fl R} (ha : IsLeast {x | x ∈ ((pushes h).take c).map Prod.fst} a)
    (hb : IsGreatest {x | x ∈ ((pushes h).take c).map Prod.fst} b) :
    ∃ E : ℕ → Fl R,
      (wdensitySet lo hi c B x0).answer h () = .val ((List.range (B + 2)).map fun i => (E i,
        fdiv ((((pushes h).filter fun p =>
            decide ((0 < i → E i ≤ p.1) ∧ (i ≤ B → p.1 < E (i + 1)))).map Prod.snd).foldl (· + ·) 0)
          (((pushes h).map Prod.snd).foldl (· + ·) 0))) ∧
      Monotone E ∧ E 1 = a ∧ ∀ i, E i = a + ((i : Fl R) - 1) * ((b - a) / (B : Fl R)) := by
  have hc : 0 < c := by
    rcases Nat.eq_zero_or_pos c with rfl | hc
    · simp [IsLeast] at ha
    · exact hc
  obtain ⟨s, e, I⟩ : ∃ s, (wdensitySet lo hi c B x0).exec (wdensityInit lo hi c B x0) h = .val s ∧
      s.FlInv lo hi c B (pushes h) := by
    have gen : ∀ (g : List (Op (Fl R × Fl R) Unit)) s ps, s.FlInv lo hi c B ps → ps ++ pushes g = pushes h →
        ∃ s', (wdensitySet lo hi c B x0).exec s g = .val s' ∧ s'.FlInv lo hi c B (ps ++ pushes g) := by
      intro g
      induction g with
      | nil => exact fun s ps I _ => ⟨s, rfl, by simpa [pushes] using I⟩
      | cons o os ih =>
        intro s ps I hg
        cases o with
        | push p =>
          obtain ⟨s', e, I'⟩ := wdensityPush_fl hB p (fun y hy => hlim y (by
            rw [← hg]
            simp only [pushes, List.mem_append, List.mem_cons, List.not_mem_nil, or_false] at hy ⊢
            tauto)) hc I
          obtain ⟨s'', e', I''⟩ := ih s' (ps ++ [p]) I' (by simpa [pushes] using hg)
          refine ⟨s'', ?_, by simpa [pushes] using I''⟩
          simp only [RMachine.exec, RMachine.exec1]
          change (wdensityPush s p >>= _) = _
          rw [e, Res.val_bind, e']
        | query q =>
          obtain ⟨s', e, I'⟩ := wdensityQuery_fl I
          obtain ⟨s'', e', I''⟩ := ih s' ps I' (by simpa [pushes] using hg)
          refine ⟨s'', ?_, by simpa [pushes] using I''⟩
          simp only [RMachine.exec, RMachine.exec1]
          change ((wdensityQuery s >>= _) >>= _) = _
          rw [e, Res.val_bind, Res.pure_eq, Res.val_bind, e']
    simpa using gen h _ [] (wdensityInit_fl lo hi hc x0) (by simp)
  rw [List.map_take] at ha hb
  have hlim' : ∀ y ∈ (pushes h).map Prod.fst, lo ≤ y ∧ y ≤ hi := List.forall_mem_map.2 hlim
  have hne : ((pushes h).map Prod.fst).take c ≠ [] := List.ne_nil_of_mem ha.1
  have ea : flMin hi c ((pushes h).map Prod.fst) = a :=
    (C09_min hi _ hne (fun x hx => (hlim' x (List.mem_of_mem_take hx)).2)).unique ha
  have eb : flMax lo c ((pushes h).map Prod.fst) = b :=
    (C09_max lo _ hne (fun x hx => (hlim' x (List.mem_of_mem_take hx)).1)).unique hb
  obtain ⟨hpos, hbins⟩ := I.after hfull
  rw [ea, eb] at hpos hbins
  refine ⟨flEdge a b B, ?_, flEdge_mono (hb.2 ha.1) B, flEdge_one a b B, fun i => rfl⟩
  obtain ⟨s', e', _⟩ := wdensityQuery_fl I
  unfold RMachine.answer
  change ((wdensitySet lo hi c B x0).exec (wdensityInit lo hi c B x0) h >>= fun s => wdensityQuery s >>= _) = _
  rw [e, Res.val_bind, e', Res.val_bind, Res.pure_eq, hpos, hbins, I.wsum]
  congr 1
  unfold tab
  apply List.map_congr_left
  intro i hi
  have hi := List.mem_range.1 hi
  simp only [List.getElem?_map, List.getElem?_range hi, Option.map_some, Option.getD_some]
  rfl

theorem foldl_add_mono {S W : Fl R} (h : S ≤ W) (f : Fl R × Fl R → Bool) :
    ∀ ps : List (Fl R × Fl R), (∀ p ∈ ps, 0 ≤ p.2.val) →
      ((ps.filter f).map Prod.snd).foldl (· + ·) S ≤ (ps.map Prod.snd).foldl (· + ·) W := by
  intro ps
  induction ps generalizing S W with
  | nil => intro _; simpa using h
  | cons p ps ih =>
    intro hw
    have hp := hw p (by simp)
    have hps : ∀ q ∈ ps, 0 ≤ q.2.val := fun q hq => hw q (by simp [hq])
    cases hf : f p
    · rw [List.filter_cons_of_neg (by simp [hf])]
      simp only [List.map_cons, List.foldl_cons]
      refine ih (h.trans ?_) hps
      rw [Fl.le_iff, Fl.val_add]
      calc W.val = R.rd W.val := (Fl.rd_val W).symm
        _ ≤ _ := R.mono (by linarith)
    · rw [List.filter_cons_of_pos hf]
      simp only [List.map_cons, List.foldl_cons]
      refine ih ?_ hps
      rw [Fl.le_iff, Fl.val_add, Fl.val_add]
      have h' : S.val ≤ W.val := h
      exact R.mono (by linarith)

theorem foldl_map_sumRun (l : List (Fl R × Fl R)) : (l.map Prod.snd).foldl (· + ·) 0 = sumRun Prod.snd 0 l := by
  rw [List.foldl_map]
  rfl

/-- **C86** With non-negative weights that are not all zero, every reported fraction is between 0 and 1, its relative error
against the exact fraction of the weights between the computed edges is bounded, and the fractions sum to 1 within the
same bound. -/
theorem C86_fractions (hu : R.RelErr u) (hu1 : u < 1) {E : ℕ → Fl R} (hE : Monotone E) (B : ℕ)
    (ps : List (Fl R × Fl R)) (hw : ∀ p ∈ ps, 0 ≤ p.2.val) (hW : 0 < (ps.map fun p => p.2.val).sum) :
    ∃ q : ℕ → Fl R,
      (∀ i, fdiv (((ps.filter fun p =>
            decide ((0 < i → E i ≤ p.1) ∧ (i ≤ B → p.1 < E (i + 1)))).map Prod.snd).foldl (· + ·) 0)
          ((ps.map Prod.snd).foldl (· + ·) 0) = .val (q i)) ∧
      (∀ i, 0 ≤ (q i).val ∧ (q i).val ≤ 1) ∧
      (∀ i, |(q i).val - ((ps.filter fun p => decide ((0 < i → E i ≤ p.1) ∧ (i ≤ B → p.1 < E (i + 1)))).map
            fun p => p.2.val).sum / (ps.map fun p => p.2.val).sum|
          ≤ ((1 + u) ^ (ps.length + 1) / (1 - u) ^ ps.length - 1) *
            (((ps.filter fun p => decide ((0 < i → E i ≤ p.1) ∧ (i ≤ B → p.1 < E (i + 1)))).map
              fun p => p.2.val).sum / (ps.map fun p => p.2.val).sum)) ∧
      |((List.range (B + 2)).map fun i => (q i).val).sum - 1|
        ≤ (1 + u) ^ (ps.length + 1) / (1 - u) ^ ps.length - 1 := by
  have h0 := hu.nonneg
  set W := (ps.map fun p => p.2.val).sum with hWdef
  set Wc := (ps.map Prod.snd).foldl (· + ·) (0 : Fl R) with hWc
  set L : ℕ → List (Fl R × Fl R) := fun i =>
    ps.filter fun p => decide ((0 < i → E i ≤ p.1) ∧ (i ≤ B → p.1 < E (i + 1))) with hL
  have hLw : ∀ i, ∀ p ∈ L i, 0 ≤ p.2.val := fun i p hp => hw p (List.mem_of_mem_filter hp)
  have hLs : ∀ i, 0 ≤ ((L i).map fun p => p.2.val).sum := fun i => weights_nonneg Prod.snd (hLw i)
  obtain ⟨b1, b2⟩ := sumW_bounds hu hu1 Prod.snd ps hw
  rw [← foldl_map_sumRun, ← hWc] at b1 b2
  have hp : 0 < (1 - u) ^ ps.length := pow_pos (by linarith) _
  have hp1 : (1 - u) ^ ps.length ≤ 1 := pow_le_one₀ (by linarith) (by linarith)
  have hWcpos : 0 < Wc.val := lt_of_lt_of_le (mul_pos hp hW) b1
  have hWne : Wc ≠ 0 := fun e => by rw [e, Fl.val_zero] at hWcpos; exact lt_irrefl _ hWcpos
  have key : ∀ i, ∃ q : Fl R, fdiv (((L i).map Prod.snd).foldl (· + ·) 0) Wc = .val q ∧ 0 ≤ q.val ∧ q.val ≤ 1 ∧
      |q.val - ((L i).map fun p => p.2.val).sum / W| ≤ ((1 + u) ^ (ps.length + 1) / (1 - u) ^ ps.length - 1) *
        (((L i).map fun p => p.2.val).sum / W) := by
    intro i
    have hs := C58_sum hu Prod.snd 0 (L i)
    rw [Fl.val_zero, abs_zero, zero_add, zero_add,
      show ((L i).map fun p => |p.2.val|) = (L i).map fun p => p.2.val from
        List.map_congr_left (fun p hp => abs_of_nonneg (hLw i p hp))] at hs
    have hd : (1 + u) ^ (L i).length - 1 ≤ (1 + u) ^ ps.length - 1 := by
      have : (1 + u) ^ (L i).length ≤ (1 + u) ^ ps.length :=
        pow_le_pow_right₀ (by linarith) (List.length_filter_le _ _)
      linarith
    obtain ⟨m, e, hm⟩ := div_weights_err hu hp hp1 hW b1 b2 (pow_rel h0 ps.length)
      (abs_of_nonneg (hLs i)).le (hs.trans (mul_le_mul_of_nonneg_right hd (hLs i)))
    refine ⟨m, by rw [foldl_map_sumRun]; exact e, ?_, ?_, ?_⟩
    · have hn := (sumW_bounds hu hu1 Prod.snd (L i) (hLw i)).1
      have hn' : 0 ≤ (sumRun Prod.snd 0 (L i)).val :=
        (mul_nonneg (pow_nonneg (by linarith) _) (hLs i)).trans hn
      unfold fdiv at e
      rw [if_neg hWne, Res.val.injEq] at e
      rw [← e, Fl.val_div]
      exact R.nonneg (_root_.div_nonneg hn' hWcpos.le)
    · have hle : (sumRun Prod.snd 0 (L i)).val ≤ Wc.val := by
        rw [← foldl_map_sumRun]
        exact foldl_add_mono (le_refl (0 : Fl R)) _ ps hw
      unfold fdiv at e
      rw [if_neg hWne, Res.val.injEq] at e
      rw [← e, Fl.val_div, ← R.one]
      exact R.mono ((div_le_one hWcpos).2 hle)
    · refine hm.trans_eq ?_
      congr 1
      rw [pow_succ]
      ring
  choose q h1 h2 h3 h4 using key
  refine ⟨q, h1, fun i => ⟨h2 i, h3 i⟩, h4, ?_⟩
  have ht : ∑ i ∈ Finset.range (B + 2), ((L i).map fun p => p.2.val).sum / W = 1 := by
    rw [← Finset.sum_div, div_eq_one_iff_eq hW.ne', hWdef]
    have gen : ∀ l : List (Fl R × Fl R), ∑ i ∈ Finset.range (B + 2),
        ((l.filter fun p => decide ((0 < i → E i ≤ p.1) ∧ (i ≤ B → p.1 < E (i + 1)))).map fun p => p.2.val).sum
          = (l.map fun p => p.2.val).sum := by
      intro l
      induction l with
      | nil => simp
      | cons p l ih =>
        obtain ⟨k, hk, hin, -⟩ := binAdd_fl hE (B := B) [] p.1 0
        have hstep : ∀ i ∈ Finset.range (B + 2),
            (((p :: l).filter fun p => decide ((0 < i → E i ≤ p.1) ∧ (i ≤ B → p.1 < E (i + 1)))).map
              fun p => p.2.val).sum = (if i = k then p.2.val else 0) +
            ((l.filter fun p => decide ((0 < i → E i ≤ p.1) ∧ (i ≤ B → p.1 < E (i + 1)))).map
              fun p => p.2.val).sum := by
          intro i hi
          by_cases hik : i = k
          · subst hik
            rw [List.filter_cons_of_pos (by exact decide_eq_true hin), if_pos rfl]
            simp
          · rw [List.filter_cons_of_neg, if_neg hik, zero_add]
            simp only [decide_eq_true_eq]
            exact fun h => hik (betweenEdges_unique hE (by simp at hi; omega) hk h hin)
        rw [Finset.sum_congr rfl hstep, Finset.sum_add_distrib, ih, Finset.sum_ite_eq',
          if_pos (by simp; omega)]
        simp
    exact gen ps
  rw [sum_range_eq]
  calc |∑ i ∈ Finset.range (B + 2), (q i).val - 1|
      = |∑ i ∈ Finset.range (B + 2), ((q i).val - ((L i).map fun p => p.2.val).sum / W)| := by
        rw [Finset.sum_sub_distrib, ht]
    _ ≤ ∑ i ∈ Finset.range (B + 2), |(q i).val - ((L i).map fun p => p.2.val).sum / W| :=
        Finset.abs_sum_le_sum_abs _ _
    _ ≤ ∑ i ∈ Finset.range (B + 2), ((1 + u) ^ (ps.length + 1) / (1 - u) ^ ps.length - 1) *
          (((L i).map fun p => p.2.val).sum / W) := Finset.sum_le_sum fun i _ => h4 i
    _ = _ := by rw [← Finset.mul_sum, ht, mul_one]

/-- Four `double`s with weights, two of them cached, two bins. -/
def wdensityDoubles : List (Op (Fl double × Fl double) Unit) :=
  onlyPushes ([(1 / 10, 1 / 3), (7 / 10, 1 / 7), (3 / 10, 2), (9 / 10, 1 / 10)].map fun p : ℚ × ℚ =>
    (Fl.ofK double p.1, Fl.ofK double p.2))

example :
    ∃ (E q : ℕ → Fl double),
      (wdensitySet (Fl.ofK double (-100)) (Fl.ofK double 100) 2 2 0).answer wdensityDoubles ()
        = .val ((List.range 4).map fun i => (E i, .val (q i))) ∧ Monotone E ∧ E 1 = Fl.ofK double (1 / 10) ∧
      (∀ i, 0 ≤ (q i).val ∧ (q i).val ≤ 1) ∧
      |((List.range 4).map fun i => (q i).val).sum - 1|
        ≤ (1 + 1 / 2 ^ 53) ^ 5 / (1 - 1 / 2 ^ 53) ^ 4 - 1 := by
  obtain ⟨E, e, hE, h1, -⟩ := C86_density (lo := Fl.ofK double (-100)) (hi := Fl.ofK double 100) (c := 2) (B := 2)
    (by norm_num) 0 wdensityDoubles (by decide +kernel) (by decide +kernel)
    (a := Fl.ofK double (1 / 10)) (b := Fl.ofK double (7 / 10))
    ⟨by show _ ∈ ((pushes wdensityDoubles).take 2).map Prod.fst; decide +kernel, by
      show ∀ x, x ∈ ((pushes wdensityDoubles).take 2).map Prod.fst → _
      decide +kernel⟩
    ⟨by show _ ∈ ((pushes wdensityDoubles).take 2).map Prod.fst; decide +kernel, by
      show ∀ x, x ∈ ((pushes wdensityDoubles).take 2).map Prod.fst → _
      decide +kernel⟩
  obtain ⟨q, hq, hb, -, ht⟩ := C86_fractions double_relErr (by norm_num) hE 2 (pushes wdensityDoubles)
    (by decide +kernel) (by decide +kernel)
  refine ⟨E, q, ?_, hE, h1, hb, ht⟩
  rw [e]
  congr 1
  exact List.map_congr_left fun i _ => by rw [hq i]

/-- **C86** Rounding can lose weights altogether: after a weight `2^53` the sample of weight 1 in the same bin, and
the sum of the weights, do not change, so the fractions need not be those of the exact weights. -/
theorem C86_weight_lost :
    let h : List (Op (Fl double × Fl double) Unit) :=
      onlyPushes ([(0, 2 ^ 53), (1, 1), (0, 1)].map fun p : ℚ × ℚ => (Fl.ofK double p.1, Fl.ofK double p.2))
    (wdensitySet (Fl.ofK double (-100)) (Fl.ofK double 100) 2 1 0).answer h ()
      = .val [(Fl.ofK double (-1), .val 0), (0, .val 1), (1, .val (Fl.ofK double (1 / 2 ^ 53)))] := by
  decide +kernel

end Acc
