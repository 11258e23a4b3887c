import Verif.Spec.Safe
import Verif.Proofs.FullRead
import Verif.Props.Rolling
import Verif.Props.Density
import Verif.Props.PSquareInterp
import Verif.Props.WPSquare
import Verif.Props.TailEst
import Verif.Props.WTail
import Verif.Props.Pot

/-!
# Results that the language defines: every estimator in a set of its own
-/

set_option linter.unusedSectionVars false

namespace Acc

open StdF

/-! ## Composition -/

section defined
variable {α β : Type}

theorem defined_val (a : α) : (Res.val a).Defined := trivial

theorem Res.Defined.bind {r : Res α} {f : α → Res β} (h : r.Defined) (hf : ∀ a, r = .val a → (f a).Defined) :
    (r >>= f).Defined := by
  cases r with
  | val a => exact hf a rfl
  | nonfinite => trivial
  | thrown => trivial
  | ub => exact h.elim
  | diverges => exact h.elim

theorem Res.Defined.bind' {r : Res α} {f : α → Res β} (h : r.Defined) (hf : ∀ a, (f a).Defined) :
    (r >>= f).Defined := h.bind fun a _ => hf a

theorem nanOrThrow_defined (b : Bool) : (nanOrThrow b : Res α).Defined := by cases b <;> trivial

theorem defined_of_val {r : Res α} (h : ∃ a, r = .val a) : r.Defined := by
  obtain ⟨a, rfl⟩ := h
  trivial

end defined

section
variable {K : Type} [Field K] [LinearOrder K]

theorem fdiv_defined (a b : K) : (fdiv a b).Defined := by
  unfold fdiv
  split <;> trivial

theorem vecDiv_defined (c : K) (v : List K) : (vecDiv c v).Defined := by
  induction v with
  | nil => trivial
  | cons a v ih => exact (fdiv_defined a c).bind' fun q => ih.bind' fun qs => trivial

theorem safe_hist {r : Res (List (K × Res K))} (h : ∃ l, r = .val l ∧ ∀ b ∈ l, b.2.Defined) : Spec.Safe (.hist r) := by
  obtain ⟨l, rfl, h⟩ := h
  refine ⟨trivial, fun l' e => ?_⟩
  injection e with e
  exact e ▸ h

/-- All three components are defined. -/
def FitDefined (f : PotFit K) : Prop := f.1.Defined ∧ f.2.1.Defined ∧ f.2.2.Defined

theorem safe_fit {r : Res (PotFit K)} (h : r.Defined) (hf : ∀ f, r = .val f → FitDefined f) : Spec.Safe (.fit r) := ⟨h, hf⟩

/-! ## Histograms -/

theorem wtable_defined [IsStrictOrderedRing K] [FloorRing K] (lo hi : K) (c B : ℕ) (ps : List (K × K)) :
    ∀ b ∈ wtable lo hi c B ps, b.2.Defined := by
  intro b hb
  unfold wtable at hb
  split at hb
  · rw [List.eq_of_mem_replicate hb]
    exact fdiv_defined _ _
  · obtain ⟨i, -, rfl⟩ := List.mem_map.1 hb
    exact fdiv_defined _ _

theorem psqHist_defined {heights pos : List K} {c : K} {r : List (K × Res K)} (h : psqHist heights pos c = .val r)
    (hl : heights.length ≤ pos.length) : ∀ b ∈ r, b.2.Defined := by
  unfold psqHist at h
  rw [mapRes_val (g := fun i => ((heights[i]?).getD 0, fdiv ((pos[i]?).getD 0) c))] at h
  · rw [Res.val.injEq] at h
    subst h
    intro b hb
    obtain ⟨i, -, rfl⟩ := List.mem_map.1 hb
    exact fdiv_defined _ _
  · intro i hi
    have h1 := List.mem_range.1 hi
    have h2 : i < pos.length := by omega
    simp [getAt_lt h1, getAt_lt h2, h1, h2]

theorem psqCumul_defined [IsStrictOrderedRing K] {b : ℕ} (hb : 0 < b) (h : List (Op K Unit)) :
    ∃ r, (psqCumulSet b).answer h () = .val r ∧ ∀ p ∈ r, p.2.Defined := by
  obtain ⟨s, e, I⟩ := psqCumul_exec hb h
  obtain ⟨s', r, e', -, -, hr⟩ := psqCumul_query_inv I
  have hl := psqInv_len I.m
  refine ⟨r, ?_, psqHist_defined hr (by omega)⟩
  unfold RMachine.answer
  simp only [e, Res.val_bind, e', Res.pure_eq]

theorem wpsqCumul_defined [IsStrictOrderedRing K] {b : ℕ} (hb : 0 < b) (h : List (Op (K × K) Unit)) :
    ∃ r, (wpsqCumulSet b).answer h () = .val r ∧ ∀ p ∈ r, p.2.Defined := by
  obtain ⟨s, e, I⟩ := wpsqCumul_exec hb h
  obtain ⟨s', r, e', -, -, hr⟩ := wpsqCumul_query I
  have hl := wpsq_len I.wf
  refine ⟨r, ?_, psqHist_defined hr (by omega)⟩
  unfold RMachine.answer
  simp only [e, Res.val_bind, e', Res.pure_eq]

/-! ## Extended P² quantiles -/

theorem epsqQuantile_defined [IsStrictOrderedRing K] (kind : Interp) (nan : Bool) {ps hs : List K}
    (hp : ps.Pairwise (· < ·)) (h0 : 0 < ps.length) (hl : hs.length = ps.length)
    (hk : kind = .quadratic → ps.length ≠ 2) (p : K) : (epsqQuantile kind nan ps hs p).Defined := by
  rcases C25_defined kind nan hp h0 hl hk p with ⟨-, e⟩ | ⟨-, v, e⟩
  · rw [e]; exact nanOrThrow_defined nan
  · rw [e]; trivial

/-! ## The tail -/

section tail
variable [IsStrictOrderedRing K] [FloorRing K]

theorem tailLevel_pos (side : Side) {p : K} (h0 : 0 < p) (h1 : p < 1) : 0 < tailLevel side p := by
  cases side
  · exact h0
  · exact sub_pos.2 h1

/-- A level strictly between 0 and 1 never rounds to no samples at all. -/
theorem tailCount_pos (side : Side) {cnt : ℕ} (hc : 0 < cnt) {p : K} (h0 : 0 < p) (h1 : p < 1) :
    ∃ n : ℕ, 1 ≤ n ∧ Spec.tailCount side cnt p = n := by
  obtain ⟨n, hn⟩ := tailCount_nonneg (side := side) (cnt := cnt) h0.le h1.le
  refine ⟨n, ?_, hn⟩
  have hpos : 0 < Spec.tailCount side cnt p := by
    have hc' : (0 : K) < cnt := Nat.cast_pos.2 hc
    cases side
    · exact Int.ceil_pos.2 (mul_pos hc' h0)
    · exact Int.ceil_pos.2 (mul_pos hc' (sub_pos.2 h1))
  rw [hn] at hpos
  omega

section
variable {V : Type} (H : HeapImpl ℕ) (side : Side) (hasNaN : Bool) {k : ℕ} (hk : 1 ≤ k) (x0 : K) (v0 : V)
  (h : List (Op (K × V) Unit)) (hne : pushes h ≠ []) {p : K} (h0 : 0 < p) (h1 : p < 1)
include hk hne h0 h1

theorem tailQuantile_defined : (tailQuantile H side hasNaN k x0 v0 h p).Defined := by
  obtain ⟨n, h2, hn⟩ := tailCount_pos side (List.length_pos_of_ne_nil hne) h0 h1
  rcases Nat.lt_or_ge n (min k (pushes h).length) with hlt | hge
  · obtain ⟨x, hx, -⟩ := C18_quantile H side hasNaN x0 v0 h hk hn h2 hlt
    rw [hx]; trivial
  · rw [C18_too_few H side hasNaN x0 v0 h hk hn hge]
    exact nanOrThrow_defined hasNaN

theorem nonCoherentTailMean_defined : (nonCoherentTailMean H side hasNaN k x0 v0 h p).Defined := by
  obtain ⟨n, h2, hn⟩ := tailCount_pos side (List.length_pos_of_ne_nil hne) h0 h1
  rcases Nat.lt_or_ge (min k (pushes h).length) n with hlt | hge
  · rw [C19_too_few H side hasNaN x0 v0 h hk hn hlt]
    exact nanOrThrow_defined hasNaN
  · rw [C19_mean H side hasNaN x0 v0 h hk hn h2 hge]
    trivial

theorem coherentTailMean_defined : (coherentTailMean H side hasNaN k x0 v0 h p).Defined := by
  have hq := tailQuantile_defined H side hasNaN hk x0 v0 h hne h0 h1
  have hm := nonCoherentTailMean_defined H side hasNaN hk x0 v0 h hne h0 h1
  obtain ⟨n, h2, hn⟩ := tailCount_pos side (List.length_pos_of_ne_nil hne) h0 h1
  obtain ⟨s, out, hr, ht, -⟩ := extract_both H side hk x0 v0 h
  simp only [tailQuantile, nonCoherentTailMean, hr, Res.val_bind, tailN_eq hn, ht] at hq hm
  simp only [coherentTailMean, hr, Res.val_bind, tailN_eq hn, ht, coherentTailMeanResult, coherentTailMeanOf]
  exact hm.bind' fun m => hq.bind' fun q => (fdiv_defined _ _).bind' fun _ => (fdiv_defined _ _).bind' fun _ => trivial

end

theorem vecAccumulate_defined {d : ℕ} {vs : List (List K)} (hv : ∀ v ∈ vs, v.length = d) :
    (vecAccumulate (List.replicate d 0) vs).Defined := by
  have e : List.replicate d (0 : K) = (List.range d).map fun _ => 0 := by simp
  rw [e, vecAccumulate_range hv]
  trivial

theorem tailVariateMeans_defined (H : HeapImpl ℕ) (side : Side) (relative hasNaN : Bool) {k : ℕ} (hk : 1 ≤ k) (x0 : K)
    (v0 : List K) (h : List (Op (K × List K) Unit)) (hne : pushes h ≠ []) {p : K} (h0 : 0 < p) (h1 : p < 1) {d : ℕ}
    (hd : ∀ q ∈ pushes h, q.2.length = d) : (tailVariateMeans H side relative hasNaN k x0 v0 h p).Defined := by
  have hm := nonCoherentTailMean_defined H side hasNaN hk x0 v0 h hne h0 h1
  obtain ⟨n, h2, hn⟩ := tailCount_pos side (List.length_pos_of_ne_nil hne) h0 h1
  obtain ⟨s, out, hr, ht, hv, h3, D, h5, -⟩ := extract_both H side hk x0 v0 h
  have hl := extremes_length side k ((pushes h).map Prod.fst)
  rw [← h3] at hl
  have hl' : out.length = min k (pushes h).length := by simpa using hl
  have hpos := List.length_pos_of_ne_nil hne
  have hdo : ∀ q ∈ out, q.2.length = d := fun q hq => hd q (h5.mem_iff.1 (List.mem_append_left _ hq))
  simp only [nonCoherentTailMean, hr, Res.val_bind, tailN_eq hn, ht] at hm
  simp only [tailVariateMeans, hr, Res.val_bind, tailN_eq hn, ht, hv, tailVariateMeansResult]
  revert hm
  generalize nonCoherentTailMeanResult hasNaN n (out.map Prod.fst) = m
  intro hm
  unfold tailVariateMeansOf
  cases out with
  | nil => simp at hl'; omega
  | cons q qs =>
    simp only [List.map_cons]
    split
    · rw [hdo q (by simp)]
      refine (vecAccumulate_defined (d := d) ?_).bind' fun s => ?_
      · intro v hv
        have hv' := List.mem_of_mem_take hv
        rw [← List.map_cons (f := Prod.snd)] at hv'
        obtain ⟨q', h6, rfl⟩ := List.mem_map.1 hv'
        exact hdo q' h6
      · cases relative
        · exact vecDiv_defined _ _
        · exact hm.bind' fun m => vecDiv_defined _ _
    · exact nanOrThrow_defined hasNaN

/-! ## The weighted tail -/

theorem wtailLoop_split (ex : Res (ℕ × K)) (thr : K) (ws : List K) (n : ℕ) (s : K) :
    wtailLoop ex thr n s ws = ex ∨ ∃ m t, wtailLoop ex thr n s ws = .val (m, t) ∧ m ≤ n + ws.length := by
  induction ws generalizing n s with
  | nil =>
    unfold wtailLoop
    split
    · exact Or.inl rfl
    · exact Or.inr ⟨n, s, rfl, by simp⟩
  | cons w ws ih =>
    unfold wtailLoop
    split
    · rcases ih (n + 1) (s + w) with h | ⟨m, t, h, hm⟩
      · exact Or.inl h
      · exact Or.inr ⟨m, t, h, by simp only [List.length_cons]; omega⟩
    · exact Or.inr ⟨n, s, rfl, by simp⟩

theorem innerProduct_defined (n : ℕ) {xs ws : List K} (h1 : n ≤ xs.length) (h2 : n ≤ ws.length) (init : K) :
    (innerProduct init n xs ws).Defined := by
  induction n generalizing xs ws init with
  | zero => unfold innerProduct; trivial
  | succ n ih =>
    cases xs with
    | nil => simp at h1
    | cons x xs =>
      cases ws with
      | nil => simp at h2
      | cons w ws =>
        simp only [List.length_cons] at h1 h2
        unfold innerProduct
        exact ih (by omega) (by omega) _

theorem vecInnerProduct_defined {d : ℕ} (n : ℕ) {vs : List (List K)} {ws : List K} (h1 : n ≤ vs.length) (h2 : n ≤ ws.length)
    (hd : ∀ v ∈ vs, v.length = d) (f : ℕ → K) : (vecInnerProduct ((List.range d).map f) n vs ws).Defined := by
  induction n generalizing vs ws f with
  | zero => unfold vecInnerProduct; trivial
  | succ n ih =>
    cases vs with
    | nil => simp at h1
    | cons v vs =>
      cases ws with
      | nil => simp at h2
      | cons w ws =>
        simp only [List.length_cons] at h1 h2
        unfold vecInnerProduct
        rw [vecAdd_range (by rw [List.length_map]; exact hd v (by simp))]
        exact ih (by omega) (by omega) (fun v hv => hd v (by simp [hv])) _

theorem wtailMeanResult_defined (hasNaN : Bool) (thr : K) {tail ws : List K} (h : tail.length = ws.length) :
    (wtailMeanResult hasNaN thr tail ws).Defined := by
  unfold wtailMeanResult
  rcases wtailLoop_split (nanOrThrow hasNaN) thr ws 0 0 with e | ⟨m, t, e, hm⟩
  · rw [e]
    exact (nanOrThrow_defined hasNaN).bind fun a ha => by
      unfold nanOrThrow at ha; split at ha <;> cases ha
  · rw [e]
    exact (innerProduct_defined m (by omega) (by omega) 0).bind' fun s => fdiv_defined _ _

section
variable {V : Type} (H : HeapImpl ℕ) (side : Side) (hasNaN : Bool) (wt : V → K) {k : ℕ} (hk : 1 ≤ k) (x0 : K) (v0 : V)
  (h : List (Op (K × V) Unit)) (hne : pushes h ≠ []) (hw : ∀ q ∈ pushes h, 0 < wt q.2) {p : K} (h0 : 0 < p) (h1 : p < 1)
include hne hw h0 h1

theorem tailWeight_pos : 0 < Spec.tailWeight side (Spec.totalWeight wt (pushes h)) p := by
  rw [← wtailThreshold_eq, wtailThreshold_sum]
  refine mul_pos (List.sum_pos _ (fun x hx => ?_) (by simpa using hne)) (tailLevel_pos side h0 h1)
  obtain ⟨q, hq, rfl⟩ := List.mem_map.1 hx
  exact hw q hq

include hk in
theorem wtailQuantile_defined : (wtailQuantile H side hasNaN wt k x0 v0 h p).Defined := by
  have hT := tailWeight_pos side wt h hne hw h0 h1
  obtain ⟨s, out, hr, ht, hv, -⟩ := extract_both H side hk x0 v0 h
  have hv' : extractTailVariate H side k x0 v0 h = .val (out.map Prod.snd) := by
    simp only [extractTailVariate, hr, Res.val_bind, hv]
  rcases lt_or_ge ((out.map Prod.snd).map wt).sum (Spec.tailWeight side (Spec.totalWeight wt (pushes h)) p) with hc | hc
  · rw [(C37_insufficient H side hasNaN x0 v0 h hk (fun q hq => (hw q hq).le) hv' hc).1]
    exact nanOrThrow_defined hasNaN
  · obtain ⟨x, -, e, -⟩ := C37_quantile H side hasNaN x0 v0 h hk (fun q hq => (hw q hq).le) hT hv' hc
    rw [e]; trivial

end

theorem wtailMean_defined {V : Type} (H : HeapImpl ℕ) (side : Side) (hasNaN : Bool) (wt : V → K) {k : ℕ} (hk : 1 ≤ k)
    (x0 : K) (v0 : V) (h : List (Op (K × V) Unit)) (p : K) : (wtailMean H side hasNaN wt k x0 v0 h p).Defined := by
  obtain ⟨s, out, hr, ht, hv, -⟩ := extract_both H side hk x0 v0 h
  simp only [wtailMean, hr, Res.val_bind, ht, hv]
  exact wtailMeanResult_defined _ _ (by simp)

theorem wtailVariateMeans_defined (H : HeapImpl ℕ) (side : Side) (relative hasNaN : Bool) {k : ℕ} (hk : 1 ≤ k) (x0 : K)
    (v0 : List K × K) (h : List (Op (K × (List K × K)) Unit)) (hne : pushes h ≠ [])
    (hw : ∀ q ∈ pushes h, 0 < q.2.2) {p : K} (h0 : 0 < p) (h1 : p < 1) {d : ℕ}
    (hd : ∀ q ∈ pushes h, q.2.1.length = d) (hc : hasNaN = true → (pushes h).length ≤ k) :
    (wtailVariateMeans H side relative hasNaN k x0 v0 h p).Defined := by
  obtain ⟨out, D, ht, hv, hp, hex, hm, hq⟩ := wtailVariate_out H side hk x0 v0 h
  have hmd := wtailMean_defined H side hasNaN Prod.snd hk x0 v0 h p
  have hdo : ∀ q ∈ out, q.2.1.length = d := fun q hq => hd q (hp.mem_iff.1 (List.mem_append_left _ hq))
  have hl := extremes_length side k ((pushes h).map Prod.fst)
  rw [← hex] at hl
  have hl' : out.length = min k (pushes h).length := by simpa using hl
  have hpos := List.length_pos_of_ne_nil hne
  have habs : hasNaN = true → ∃ r, wtailVariateMeans H side false hasNaN k x0 v0 h p = .val r := by
    intro hN
    have hT := tailWeight_pos side Prod.snd h hne hw h0 h1
    have hcl := C37_cache_large (wt := Prod.snd) H side x0 v0 h hk (hc hN) (fun q hq => (hw q hq).le) h0.le h1.le hv
    obtain ⟨sel, m, -, -, -, -, e, -⟩ := C38_partial H side hasNaN x0 v0 h hk hd hT hv hcl
    exact ⟨_, e⟩
  rw [hq] at habs ⊢
  rw [hm] at hmd
  unfold wtailVariateMeansResult at habs ⊢
  revert hmd habs
  generalize wtailMeanResult hasNaN (wtailThreshold side ((pushes h).map fun q => q.2.2) p) (out.map Prod.fst)
    (out.map fun q => q.2.2) = m
  generalize wtailThreshold side ((pushes h).map fun q => q.2.2) p = thr
  intro hmd habs
  unfold wtailVariateMeansOf at habs ⊢
  rcases wtailLoop_split (if hasNaN then .diverges else .thrown) thr (out.map fun q => q.2.2) 0 0 with e | ⟨n, t, e, hn⟩
  · rw [e] at habs ⊢
    cases hN : hasNaN with
    | true =>
      obtain ⟨r, hr⟩ := habs hN
      rw [hN] at hr
      cases hr
    | false => trivial
  · rw [e, Res.val_bind]
    simp only [List.length_map] at hn
    cases out with
    | nil => simp at hl'; omega
    | cons q qs =>
      simp only [List.map_cons]
      have e2 : List.replicate q.2.1.length (0 : K) = (List.range d).map fun _ => 0 := by
        rw [hdo q (by simp)]; simp
      rw [e2]
      refine (vecInnerProduct_defined (d := d) n (by simpa using hn) (by simpa using hn) ?_ _).bind' fun s => ?_
      · intro v hv
        rw [← List.map_cons (f := fun q : K × (List K × K) => q.2.1)] at hv
        obtain ⟨q', h6, rfl⟩ := List.mem_map.1 hv
        exact hdo q' h6
      · cases relative
        · exact vecDiv_defined _ _
        · exact hmd.bind' fun m => vecDiv_defined _ _

end tail

/-! ## Peaks over threshold -/

section pot
variable {pw : K → K → Res K} (hpw : ∀ x y, (pw x y).Defined)
include hpw

theorem potParams_defined (u : K) {mu sigma2 tp : Res K} (h1 : mu.Defined) (h2 : sigma2.Defined) (h3 : tp.Defined) :
    FitDefined (potParams pw u mu sigma2 tp) := by
  have ht : (do let m ← mu; let s ← sigma2; fdiv ((m - u) * (m - u)) s : Res K).Defined :=
    h1.bind' fun _ => h2.bind' fun _ => fdiv_defined _ _
  unfold potParams
  revert ht
  generalize (do let m ← mu; let s ← sigma2; fdiv ((m - u) * (m - u)) s : Res K) = tmp
  intro ht
  have hx : (do let t ← tmp; pure (1 / 2 * (1 - t)) : Res K).Defined := ht.bind' fun _ => trivial
  have hb : (do let m ← mu; let t ← tmp; pure (1 / 2 * (m - u) * (1 + t)) : Res K).Defined :=
    h1.bind' fun _ => ht.bind' fun _ => trivial
  have hbb := hb.bind' fun b => h3.bind' fun t => hx.bind' fun x => (hpw (1 - t) x).bind' fun w => defined_val (b * w)
  refine ⟨?_, hbb, hx⟩
  exact hbb.bind' fun b => h3.bind' fun t => hx.bind' fun x => (hpw _ _).bind' fun w =>
    (fdiv_defined _ _).bind' fun q => trivial

theorem potQuery_defined (side : Side) {s : PotSt K} (h1 : s.mu.Defined) (h2 : s.sigma2.Defined) (h3 : s.dirty = true) :
    FitDefined (potQuery pw side s).2 := by
  unfold potQuery
  rw [if_pos h3]
  have hm : (do let m ← s.mu; let q ← fdiv m (s.nu : K); pure (potSign side * q) : Res K).Defined :=
    h1.bind' fun _ => (fdiv_defined _ _).bind' fun _ => trivial
  exact potParams_defined hpw _ hm (h2.bind' fun _ => (fdiv_defined _ _).bind' fun _ => hm.bind' fun _ => trivial)
    (fdiv_defined _ _)

theorem wpotQuery_defined (side : Side) {s : WPotSt K} (h1 : s.mu.Defined) (h2 : s.sigma2.Defined) (h3 : s.dirty = true) :
    FitDefined (wpotQuery pw side s).2 := by
  unfold wpotQuery
  rw [if_pos h3]
  have hm : (do let m ← s.mu; let q ← fdiv m s.wsum; pure (potSign side * q) : Res K).Defined :=
    h1.bind' fun _ => (fdiv_defined _ _).bind' fun _ => trivial
  exact potParams_defined hpw _ hm (h2.bind' fun _ => (fdiv_defined _ _).bind' fun _ => hm.bind' fun _ => trivial)
    (fdiv_defined _ _)

theorem pot_defined [IsStrictOrderedRing K] (side : Side) (thr : K) (xs : List K) :
    ∃ f, (potSet pw side thr).answer (onlyPushes xs) () = .val f ∧ FitDefined f := by
  obtain ⟨s, e, -, -, hmu, hs2, -, hd⟩ := pot_state pw side thr xs
  refine ⟨_, ?_, potQuery_defined hpw side (s := s) (by rw [hmu]; trivial) (by rw [hs2]; trivial) hd⟩
  unfold RMachine.answer
  rw [e]
  rfl

theorem wpot_defined [IsStrictOrderedRing K] (side : Side) (thr : K) (ps : List (K × K)) :
    ∃ f, (wpotSet pw side thr).answer (onlyPushes ps) () = .val f ∧ FitDefined f := by
  obtain ⟨s, e, -, -, hmu, hs2, -, hd⟩ := wpot_state pw side thr ps
  refine ⟨_, ?_, wpotQuery_defined hpw side (s := s) (by rw [hmu]; trivial) (by rw [hs2]; trivial) hd⟩
  unfold RMachine.answer
  rw [e]
  rfl

theorem potQuantileValue_defined (side : Side) {f : PotFit K} (h : FitDefined f) (p : K) :
    (potQuantileValue pw side f p).Defined :=
  h.1.bind' fun _ => h.2.1.bind' fun _ => h.2.2.bind' fun _ => (fdiv_defined _ _).bind' fun _ =>
    (hpw _ _).bind' fun _ => trivial

theorem potTailMeanValue_defined (side : Side) {b x q : Res K} (h1 : b.Defined) (h2 : x.Defined) (h3 : q.Defined) (p : K) :
    (potTailMeanValue pw side b x q p).Defined :=
  h1.bind' fun _ => h2.bind' fun _ => h3.bind' fun _ => (fdiv_defined _ _).bind' fun _ => (hpw _ _).bind' fun _ => trivial

omit hpw in
theorem potNaN_fit (hasNaN : Bool) : (potNaN hasNaN : Res (PotFit K)) = .thrown ∨
    ∃ f, (potNaN hasNaN : Res (PotFit K)) = .val f ∧ FitDefined f := by
  cases hasNaN
  · exact Or.inl rfl
  · exact Or.inr ⟨_, rfl, trivial, trivial, trivial⟩

theorem potProb_defined [IsStrictOrderedRing K] [FloorRing K] {V : Type} (H : HeapImpl ℕ) (side : Side) (hasNaN : Bool) {k : ℕ}
    (hk : 1 ≤ k) (v0 : V) {tp : K} (h0 : 0 < tp) (h1 : tp < 1) (ps : List (K × V)) (hne : ps ≠ []) :
    (potProbSet pw H side hasNaN k v0 tp).answer (onlyPushes ps) () = .thrown ∨
      ∃ f, (potProbSet pw H side hasNaN k v0 tp).answer (onlyPushes ps) () = .val f ∧ FitDefined f := by
  obtain ⟨s, e, hc, htl, hmu, hs2, htp, hd, -⟩ := potProb_state pw H side hasNaN hk v0 tp ps
  obtain ⟨n, h2, hn⟩ := tailCount_pos side (List.length_pos_of_ne_nil hne) h0 h1
  unfold RMachine.answer
  rw [e, Res.val_bind]
  show (potProbQuery pw H side hasNaN s >>= _) = _ ∨ ∃ f, (potProbQuery pw H side hasNaN s >>= _) = _ ∧ _
  unfold potProbQuery
  rw [if_pos hd, hc, htp, tailN_eq hn, Res.val_bind, htl, Res.val_bind]
  generalize Spec.extremes side k (ps.map Prod.fst) = tail
  by_cases h3 : n ≥ tail.length
  · simp only [if_pos h3]
    rcases potNaN_fit (K := K) hasNaN with e | ⟨f, e, hf⟩
    · left; rw [e]; rfl
    · right; rw [e]; exact ⟨f, rfl, hf⟩
  · simp only [if_neg h3, if_neg (show ¬ n = 0 by omega), List.getElem?_eq_getElem (show n - 1 < tail.length by omega),
      hmu, hs2, Res.val_bind, Res.pure_eq]
    refine Or.inr ⟨_, rfl, ?_⟩
    refine potParams_defined hpw _ ?_ ?_ trivial
    · exact (fdiv_defined _ _).bind' fun _ => trivial
    · exact (fdiv_defined _ _).bind' fun _ => Res.Defined.bind' ((fdiv_defined _ _).bind' fun _ => defined_val _)
        fun _ => defined_val _

omit hpw in
theorem wpotLoop_spec (thr : K) (ps : List (K × K)) (n : ℕ) (sum : K) {mu sigma2 : Res K} (h1 : mu.Defined)
    (h2 : sigma2.Defined) :
    n ≤ (wpotLoop thr n sum mu sigma2 ps).1.1 ∧ (wpotLoop thr n sum mu sigma2 ps).1.1 ≤ n + ps.length ∧
      (wpotLoop thr n sum mu sigma2 ps).1.2.2.1.Defined ∧ (wpotLoop thr n sum mu sigma2 ps).1.2.2.2.Defined := by
  induction ps generalizing n sum mu sigma2 with
  | nil => exact ⟨le_rfl, le_rfl, h1, h2⟩
  | cons p ps ih =>
    unfold wpotLoop
    split
    · obtain ⟨a, b, c, d⟩ := ih (n + 1) (sum + p.2) (mu := do let m ← mu; pure (m + p.2 * p.1))
        (sigma2 := do let v ← sigma2; pure (v + p.2 * p.1 * p.1)) (h1.bind' fun _ => trivial) (h2.bind' fun _ => trivial)
      exact ⟨by omega, by simp only [List.length_cons]; omega, c, d⟩
    · exact ⟨le_rfl, by simp, h1, h2⟩

theorem wpotProb_defined [IsStrictOrderedRing K] [FloorRing K] (H : HeapImpl ℕ) (side : Side) (hasNaN : Bool) {k : ℕ}
    (hk : 1 ≤ k) {tp : K} (h0 : 0 < tp) (h1 : tp < 1) (ps : List (K × K)) (hne : ps ≠ []) (hw : ∀ q ∈ ps, 0 < q.2) :
    (wpotProbSet pw H side hasNaN k tp).answer (onlyPushes ps) () = .thrown ∨
      ∃ f, (wpotProbSet pw H side hasNaN k tp).answer (onlyPushes ps) () = .val f ∧ FitDefined f := by
  obtain ⟨s, out, D, e, hto, htl, htv, -, -, hex, hmu, hs2, htp, hd, -⟩ := wpotProb_state pw H side hasNaN hk tp ps
  have hthr : 0 < s.total * tailLevel side s.tp := by
    rw [hto, htp]
    refine mul_pos (List.sum_pos _ (fun x hx => ?_) (by simpa using hne)) (tailLevel_pos side h0 h1)
    obtain ⟨q, hq, rfl⟩ := List.mem_map.1 hx
    exact hw q hq
  have hl := extremes_length side k (ps.map Prod.fst)
  rw [← hex] at hl
  have hl' : out.length = min k ps.length := by simpa using hl
  have hpos := List.length_pos_of_ne_nil hne
  unfold RMachine.answer
  rw [e, Res.val_bind]
  show (wpotProbQuery pw H side hasNaN s >>= _) = _ ∨ ∃ f, (wpotProbQuery pw H side hasNaN s >>= _) = _ ∧ _
  unfold wpotProbQuery
  rw [if_pos hd, htl, Res.val_bind, htv, Res.val_bind]
  have hz : (out.map Prod.fst).zip (out.map Prod.snd) = out := by
    simp only [List.zip_map']
    simp
  rw [hz]
  have hloop : 1 ≤ (wpotLoop (s.total * tailLevel side s.tp) 0 0 s.mu s.sigma2 out).1.1 ∧
      (wpotLoop (s.total * tailLevel side s.tp) 0 0 s.mu s.sigma2 out).1.1 ≤ out.length ∧
      (wpotLoop (s.total * tailLevel side s.tp) 0 0 s.mu s.sigma2 out).1.2.2.1.Defined ∧
      (wpotLoop (s.total * tailLevel side s.tp) 0 0 s.mu s.sigma2 out).1.2.2.2.Defined := by
    cases out with
    | nil => simp at hl'; omega
    | cons p ps =>
      unfold wpotLoop
      rw [if_pos hthr]
      obtain ⟨a, b, c, d⟩ := wpotLoop_spec (s.total * tailLevel side s.tp) ps (0 + 1) (0 + p.2)
        (mu := do let m ← s.mu; pure (m + p.2 * p.1)) (sigma2 := do let v ← s.sigma2; pure (v + p.2 * p.1 * p.1))
        (by rw [hmu]; trivial) (by rw [hs2]; trivial)
      exact ⟨by omega, by simp only [List.length_cons]; omega, c, d⟩
  revert hloop
  generalize wpotLoop (s.total * tailLevel side s.tp) 0 0 s.mu s.sigma2 out = r
  rintro ⟨h2, h3, h4, h5⟩
  by_cases h6 : r.2 = true
  · simp only [if_pos h6, if_neg (show ¬ r.1.1 = 0 by omega),
      List.getElem?_eq_getElem (show r.1.1 - 1 < (out.map Prod.fst).length by rw [List.length_map]; omega)]
    refine Or.inr ⟨_, rfl, ?_⟩
    have hm : (do let m ← r.1.2.2.1; let q ← fdiv m r.1.2.1; pure (potSign side * q) : Res K).Defined :=
      h4.bind' fun _ => (fdiv_defined _ _).bind' fun _ => trivial
    exact potParams_defined hpw _ hm (h5.bind' fun _ => (fdiv_defined _ _).bind' fun _ => hm.bind' fun _ => trivial) trivial
  · simp only [if_neg h6]
    rcases potNaN_fit (K := K) hasNaN with e | ⟨f, e, hf⟩
    · left; rw [e]; rfl
    · right; rw [e]; exact ⟨f, rfl, hf⟩

end pot

end

end Acc
