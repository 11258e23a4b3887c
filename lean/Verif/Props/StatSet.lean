import Verif.Proofs.StatSet
import Verif.Spec.Sets

/-!
# C65: every elementary statistic of a set is right, whatever the set contains

The theorems about single statistics (C01–C11, C32–C34) say that an accumulator together with the accumulators it is
designed for computes the right number.  Here the accumulators are those which the framework puts together for a request:
any combination of features, in any order, with variants replacing each other, droppable or not, updated in the order
found at compile time, each reading the others through the set.
-/

set_option linter.unusedSectionVars false

namespace Acc

open StdF Args

section
variable {K : Type} [Field K] [LinearOrder K] [IsStrictOrderedRing K]
variable {irr : StdF → ℕ → (StdF → Res K) → Res K} (hirr : IrrOk irr) (w : Bool) {v0 : ℕ} {lo hi : K}

theorem basic_accumulators {ord : List (Tag StdF) → List (Tag StdF)} (hord : ∀ l, (ord l).Perm l)
    (req : List (Tag StdF)) (h : ∀ t ∈ stdLib.asList w req, basic w v0 t.base = true) :
    ∀ t ∈ stdLib.accumulators w ord req, basic w v0 t.base = true := by
  have hstep : ∀ t d : Tag StdF, d ∈ stdLib.asList w (stdLib.tdeps t) → basic w v0 t.base = true →
      basic w v0 d.base = true := by
    intro t d hd ht
    have hd0 : ∃ d0 ∈ depBases t.base, d.base = if w then weighted d0 else d0 := by
      have hb : ∀ d ∈ stdLib.tdeps t, d.base ∈ depBases t.base := by
        intro d hd
        unfold Lib.tdeps at hd
        split at hd
        · obtain ⟨d1, h1, rfl⟩ := List.mem_map.1 hd
          obtain ⟨d2, h2, rfl⟩ := List.mem_map.1 h1
          exact h2
        · obtain ⟨d2, h2, rfl⟩ := List.mem_map.1 hd
          exact h2
      unfold Lib.asList at hd
      cases w with
      | false => exact ⟨d.base, hb d hd, rfl⟩
      | true =>
        obtain ⟨d1, h1, rfl⟩ := List.mem_map.1 hd
        exact ⟨d1.base, hb d1 h1, rfl⟩
    obtain ⟨d0, h0, e⟩ := hd0
    rw [e]
    exact basic_deps w v0 t.base ht d0 h0
  have hneeds : ∀ t d : Tag StdF, Spec.Needs stdLib w t d → basic w v0 t.base = true →
      basic w v0 d.base = true := by
    intro t d hd
    induction hd with
    | direct h1 => exact hstep _ _ h1
    | step h1 _ ih => exact fun ht => ih (hstep _ _ h1 ht)
  intro t ht
  obtain ⟨r, ⟨a, b, e, -⟩, hr⟩ := C42_nothing_else stdLib_ok w hord req ht
  have hrn := h r (by rw [e]; simp)
  rcases hr with rfl | hr
  · exact hrn
  · exact hneeds r t hr hrn

/-- A set of features fed with a stream, and a feature extracted from it. -/
def statRun (irr : StdF → ℕ → (StdF → Res K) → Res K) (lo hi : K) (w : Bool)
    (ord : List (Tag StdF) → List (Tag StdF)) (req : List (Tag StdF)) (as : List (Args K)) (k : StdF) : Res K :=
  (stdLib.runOps (statImpl irr lo hi) (stdLib.accumulators w ord req)
    (stdLib.construct (statImpl irr lo hi) (stdLib.accumulators w ord req) req) (as.map .push)).bind
    fun s => StatCell.read irr s.env k

include hirr in
theorem statRun_eq {ord : List (Tag StdF) → List (Tag StdF)} (hord : ∀ l, (ord l).Perm l) (req : List (Tag StdF))
    (hb : ∀ t ∈ stdLib.asList w req, basic w v0 t.base = true) {as : List (Args K)} (hne : as ≠ [])
    (hpos : w = true → ∀ a ∈ as, 0 < a.w) {u t : Tag StdF} (hu : u ∈ stdLib.accumulators w ord req)
    (hreq : Spec.Mentions stdLib req (stdLib.tkey u)) (ht : t = u ∨ Spec.Uses stdLib (stdLib.accumulators w ord req) u t) :
    statRun irr lo hi w ord req as (stdLib.tkey t) = stat irr w v0 lo hi as (stdLib.tkey t) := by
  have hbas := basic_accumulators w hord req hb
  have hcomp := accumulators_complete stdLib_ok w hord req
  have hO := (C44_std w req .tail hord fun t ht => basic_nice w v0 _ (hb t ht)).2
  obtain ⟨s, h1, h2⟩ := runs_hold stdLib_ok (I := statImpl irr lo hi) (C42_unique stdLib_ok w hord req) hO
    (Good := GoodStat w lo hi) (fun t _ => stat_init t.base) (fun t ht => stat_stepOk hirr (fun t ht _ => hbas t ht) hcomp t ht (basic_elemKey (hbas t ht))) hu hreq as
  unfold statRun
  rw [h1]
  have htS : t ∈ stdLib.accumulators w ord req := Below.mem hu ht
  refine read_ideal hirr (fun t ht _ => hbas t ht) hcomp hne hpos htS (basic_elemKey (hbas t htS)) fun e he => h2 e ?_
  rcases he with rfl | he
  · exact ht
  · exact Below.trans ht he

include hirr in
theorem statRun_req {ord : List (Tag StdF) → List (Tag StdF)} (hord : ∀ l, (ord l).Perm l) (req : List (Tag StdF))
    (hb : ∀ t ∈ stdLib.asList w req, basic w v0 t.base = true) {as : List (Args K)} (hne : as ≠ [])
    (hpos : w = true → ∀ a ∈ as, 0 < a.w) {r : Tag StdF} (hr : r ∈ req) :
    statRun irr lo hi w ord req as (stdLib.tkey r) = stat irr w v0 lo hi as (stdLib.tkey r) := by
  have hr' : ∃ r' ∈ stdLib.asList w req, stdLib.tkey r' = stdLib.tkey r := by
    unfold Lib.asList
    cases w with
    | false => exact ⟨r, hr, rfl⟩
    | true => exact ⟨_, List.mem_map.2 ⟨r, hr, rfl⟩, stdLib_ok.weighted_key _⟩
  obtain ⟨r', h1, h2⟩ := hr'
  obtain ⟨e, ⟨he, hk⟩, -⟩ := (C42_closure stdLib_ok w hord req).1 r' h1
  have hk' := hk.trans h2
  have := statRun_eq hirr (lo := lo) (hi := hi) w hord req hb hne hpos he ⟨r, hr, hk'.symm⟩ (Or.inl rfl)
  rwa [hk'] at this

/-- The values of the model are the textbook ones. -/
theorem isStat_stat {as : List (Args K)} (hne : as ≠ []) (hpos : w = true → ∀ a ∈ as, 0 < a.w)
    (hlim : ∀ a ∈ as, lo ≤ a.x ∧ a.x ≤ hi) {f : StdF} (hb : basic w v0 f = true)
    (h1 : key f ≠ skewness) (h2 : key f ≠ errorOfMean) :
    Spec.IsStat w v0 as (key f) (stat irr w v0 lo hi as (key f)) := by
  have hx : xs as ≠ [] := by simpa [xs] using hne
  have hset : {x | ∃ a ∈ as, a.x = x} = {x | x ∈ xs as} := by
    ext x; simp [xs]
  have hlo : ∀ x ∈ xs as, lo ≤ x := by
    intro x hx
    obtain ⟨a, ha, rfl⟩ := List.mem_map.1 hx
    exact (hlim a ha).1
  have hhi : ∀ x ∈ xs as, x ≤ hi := by
    intro x hx
    obtain ⟨a, ha, rfl⟩ := List.mem_map.1 hx
    exact (hlim a ha).2
  have hmin : IsLeast {x | ∃ a ∈ as, a.x = x} (minRun ltb hi (xs as)) := by
    rw [hset]; exact C09_min hi _ hx hhi
  have hmax : IsGreatest {x | ∃ a ∈ as, a.x = x} (maxRun ltb lo (xs as)) := by
    rw [hset]; exact C09_max lo _ hx hlo
  have e1 : ((xw as).map fun p => p.2 * p.1) = as.map fun a => a.w * a.x := by
    simp [xw, List.map_map, Function.comp_def]
  have e2 : ((vw v0 as).map fun p => p.2 * p.1) = as.map fun a => a.w * a.v v0 := by
    simp [vw, List.map_map, Function.comp_def]
  have hk : kurtosis = kurtosis → Spec.IsStat w v0 as kurtosis (stat irr w v0 lo hi as kurtosis) := by
    intro _
    cases w with
    | false =>
      have e := C07_kurtosis_degenerate _ lazyMean_correct (xs as) hx
      have e' := C07_kurtosis _ lazyMean_correct (xs as) hx
      unfold kurtosisRun at e e'
      rw [momentRun_raw 2 _ hx, momentRun_raw 3 _ hx, momentRun_raw 4 _ hx, lazyMean_correct _ hx] at e e'
      simp only [Spec.IsStat, Bool.false_eq_true, if_false]
      split
      · rename_i h; exact e h
      · rename_i h; exact e' h
    | true =>
      have hpx : Spec.NonzeroPrefixes Prod.snd (xw as) :=
        (nonzeroPrefixes_of_pos (w := Args.w) (hpos rfl)).map fun _ => rfl
      have hxw : xw as ≠ [] := by simpa [xw] using hne
      have hW : Spec.wtotal (xw as) ≠ 0 := hpx.total hxw
      have e := C34_kurtosis_degenerate _ lazyWMean_correct (xw as) hxw hpx
      have e' := C34_kurtosis _ lazyWMean_correct (xw as) hxw hpx
      unfold weightedKurtosisRun at e e'
      rw [C34_moment 2 _ hW, C34_moment 3 _ hW, C34_moment 4 _ hW, lazyWMean_correct _ hxw hpx] at e e'
      simp only [Spec.IsStat, if_true]
      split
      · rename_i h; exact e h
      · rename_i h; exact e' h
  cases f <;> first
    | (cases hb; done)
    | exact hk rfl
    | exact ⟨_, rfl, hmin⟩
    | exact ⟨_, rfl, hmax⟩
    | exact absurd rfl h1
    | exact absurd rfl h2
    | rfl
    | (simp only [key, Spec.IsStat, stat, stat0, e1, e2]; rfl)
    | exact congrArg Res.val (congrArg List.sum e2)

include hirr in
/-- C65: construct a set with any list of elementary statistics, in any order, droppable or not, with or without weights;
push any non-empty stream (with positive weights, samples within the limits of the number type).  Then extracting
any requested feature gives the textbook value of that statistic, whichever variants are installed. -/
theorem C65_statistics {ord : List (Tag StdF) → List (Tag StdF)} (hord : ∀ l, (ord l).Perm l)
    (req : List (Tag StdF)) (hb : ∀ t ∈ stdLib.asList w req, basic w v0 t.base = true) {as : List (Args K)}
    (hne : as ≠ []) (hpos : w = true → ∀ a ∈ as, 0 < a.w) (hlim : ∀ a ∈ as, lo ≤ a.x ∧ a.x ≤ hi)
    {r : Tag StdF} (hr : r ∈ req) (h1 : stdLib.tkey r ≠ skewness) (h2 : stdLib.tkey r ≠ errorOfMean) :
    Spec.IsStat w v0 as (stdLib.tkey r) (statRun irr lo hi w ord req as (stdLib.tkey r)) := by
  rw [statRun_req hirr w hord req hb hne hpos hr]
  have hr' : ∃ r' ∈ stdLib.asList w req, stdLib.tkey r' = stdLib.tkey r := by
    unfold Lib.asList
    cases w with
    | false => exact ⟨r, hr, rfl⟩
    | true => exact ⟨_, List.mem_map.2 ⟨r, hr, rfl⟩, stdLib_ok.weighted_key _⟩
  obtain ⟨r', h3, h4⟩ := hr'
  rw [← h4] at h1 h2 ⊢
  exact isStat_stat w hne hpos hlim (hb r' h3) h1 h2

include hirr in
/-- C65: the same for the features that are not requested but used by a requested one. -/
theorem C65_dependencies {ord : List (Tag StdF) → List (Tag StdF)} (hord : ∀ l, (ord l).Perm l)
    (req : List (Tag StdF)) (hb : ∀ t ∈ stdLib.asList w req, basic w v0 t.base = true) {as : List (Args K)}
    (hne : as ≠ []) (hpos : w = true → ∀ a ∈ as, 0 < a.w) (hlim : ∀ a ∈ as, lo ≤ a.x ∧ a.x ≤ hi)
    {u t : Tag StdF} (hu : u ∈ stdLib.accumulators w ord req) (hreq : Spec.Mentions stdLib req (stdLib.tkey u))
    (ht : Spec.Uses stdLib (stdLib.accumulators w ord req) u t)
    (h1 : stdLib.tkey t ≠ skewness) (h2 : stdLib.tkey t ≠ errorOfMean) :
    Spec.IsStat w v0 as (stdLib.tkey t) (statRun irr lo hi w ord req as (stdLib.tkey t)) := by
  rw [statRun_eq hirr w hord req hb hne hpos hu hreq (Or.inr ht)]
  exact isStat_stat w hne hpos hlim (basic_accumulators w hord req hb t (uses_mem ht)) h1 h2

include hirr in
/-- C65: two sets that both offer a feature agree on it after the same stream: other features, other variants, another
order, another compiler make no difference. -/
theorem C65_agree {ord ord' : List (Tag StdF) → List (Tag StdF)} (hord : ∀ l, (ord l).Perm l)
    (hord' : ∀ l, (ord' l).Perm l) (req req' : List (Tag StdF))
    (hb : ∀ t ∈ stdLib.asList w req, basic w v0 t.base = true)
    (hb' : ∀ t ∈ stdLib.asList w req', basic w v0 t.base = true) {as : List (Args K)}
    (hne : as ≠ []) (hpos : w = true → ∀ a ∈ as, 0 < a.w) {r r' : Tag StdF} (hr : r ∈ req) (hr' : r' ∈ req')
    (hk : stdLib.tkey r = stdLib.tkey r') :
    statRun irr lo hi w ord req as (stdLib.tkey r) = statRun irr lo hi w ord' req' as (stdLib.tkey r') := by
  rw [statRun_req hirr w hord req hb hne hpos hr, statRun_req hirr w hord' req' hb' hne hpos hr', hk]

end

/-! ## Over the reals: skewness and the error of the mean too -/

theorem irrational_ok (bits : ℕ) : IrrOk (irrational bits) where
  skew n n' rd rd' h1 h2 h3 := by simp only [irrational, h1, h2, h3]
  err n rd rd' h := by simp only [irrational, h]

/-- C65 over the reals, for all elementary statistics (`size_t` has `bits` bits, and can count the samples). -/
theorem C65_real (bits : ℕ) (w : Bool) {v0 : ℕ} {lo hi : ℝ} {ord : List (Tag StdF) → List (Tag StdF)}
    (hord : ∀ l, (ord l).Perm l) (req : List (Tag StdF))
    (hb : ∀ t ∈ stdLib.asList w req, basic w v0 t.base = true) {as : List (Args ℝ)} (hne : as ≠ [])
    (hbits : as.length < 2 ^ bits) (hpos : w = true → ∀ a ∈ as, 0 < a.w) (hlim : ∀ a ∈ as, lo ≤ a.x ∧ a.x ≤ hi)
    {r : Tag StdF} (hr : r ∈ req) :
    Spec.IsStatReal w v0 as (stdLib.tkey r) (statRun (irrational bits) lo hi w ord req as (stdLib.tkey r)) := by
  by_cases h1 : stdLib.tkey r = skewness
  · rw [statRun_req (irrational_ok bits) w hord req hb hne hpos hr, h1]
    have hx : xs as ≠ [] := by simpa [xs] using hne
    cases w with
    | false =>
      have e := C07_skewness_degenerate _ lazyMean_correct (xs as) hx
      have e' := C07_skewness _ lazyMean_correct (xs as) hx
      unfold skewnessRun at e e'
      rw [momentRun_raw 2 _ hx, momentRun_raw 3 _ hx, lazyMean_correct _ hx] at e e'
      simp only [Spec.IsStatReal, Bool.false_eq_true, if_false]
      split
      · rename_i h; exact e h
      · rename_i h; exact e' h
    | true =>
      have hxw : xw as ≠ [] := by simpa [xw] using hne
      have hpx : Spec.NonzeroPrefixes Prod.snd (xw as) :=
        (nonzeroPrefixes_of_pos (w := Args.w) (hpos rfl)).map fun _ => rfl
      have hp : ∀ p ∈ xw as, 0 < p.2 := by
        intro p hp
        obtain ⟨a, ha, rfl⟩ := List.mem_map.1 hp
        exact hpos rfl a ha
      have hW : Spec.wtotal (xw as) ≠ 0 := hpx.total hxw
      have e := C34_skewness_degenerate _ lazyWMean_correct (xw as) hxw hpx
      have e' := C34_skewness _ lazyWMean_correct (xw as) hxw hp
      unfold weightedSkewnessRun at e e'
      rw [C34_moment 2 _ hW, C34_moment 3 _ hW, lazyWMean_correct _ hxw hpx] at e e'
      simp only [Spec.IsStatReal, if_true]
      split
      · rename_i h; exact e h
      · rename_i h; exact e' h
  by_cases h2 : stdLib.tkey r = errorOfMean
  · rw [statRun_req (irrational_ok bits) w hord req hb hne hpos hr, h2]
    have hw : w = false := by
      cases w with
      | false => rfl
      | true =>
        have := hb ⟨weighted r.base, r.drop⟩ (List.mem_map.2 ⟨r, hr, rfl⟩)
        revert this h2
        unfold Lib.tkey
        show key r.base = _ → _
        cases r.base <;> intro h2 h3 <;> first | (cases h2; done) | cases h3
    subst hw
    have hl : 0 < as.length := List.length_pos_of_ne_nil hne
    have hc : (BitVec.ofNat bits as.length - 1#bits).toNat = as.length - 1 := by
      have hb1 : 1 < 2 ^ bits ∨ as.length = 1 ∧ 2 ^ bits = 2 ^ bits := by
        rcases Nat.lt_or_ge 1 (2 ^ bits) with h | h
        · exact Or.inl h
        · omega
      rcases hb1 with hb1 | ⟨hb1, -⟩
      · rw [BitVec.toNat_sub, BitVec.toNat_ofNat, BitVec.toNat_ofNat, Nat.mod_eq_of_lt hbits, Nat.mod_eq_of_lt hb1]
        have : 2 ^ bits - 1 + as.length = 2 ^ bits + (as.length - 1) := by omega
        rw [this, Nat.add_mod_left, Nat.mod_eq_of_lt (by omega)]
      · rw [hb1]; simp
    have hval : stat (irrational bits) false v0 lo hi as errorOfMean
        = errorOfMeanResult bits (.val (Spec.variance (xs as))) (BitVec.ofNat bits as.length) := rfl
    rw [hval]
    simp only [Spec.IsStatReal, errorOfMeanResult, Res.val_bind, hc]
    split
    · rename_i h; simp [h]
    · rename_i h
      have hcast : ((as.length - 1 : ℕ) : ℝ) = (as.length : ℝ) - 1 := by
        rw [Nat.cast_sub (by omega)]; simp
      have hp : (0 : ℝ) < (as.length : ℝ) - 1 := by
        rw [← hcast]; exact_mod_cast (by omega : 0 < as.length - 1)
      have hd := div_nonneg (variance_nonneg (xs as)) hp.le
      rw [hcast, fdiv_ne hp.ne']
      simp only [Res.val_bind, not_lt.2 hd, if_false]
      exact ⟨_, rfl, Real.sqrt_nonneg _, Real.sq_sqrt hd⟩
  · have := C65_statistics (irrational_ok bits) w hord req hb hne hpos hlim hr h1 h2
    revert this
    generalize statRun (irrational bits) lo hi w ord req as (stdLib.tkey r) = x
    revert h1 h2
    generalize stdLib.tkey r = k
    intro h1 h2 h3
    cases k <;> first | exact h3 | exact absurd rfl h1 | exact absurd rfl h2

/-! ## What is not true -/

/-- C65 does not extend to everything that is in the set.  In `features<droppable<immediate_mean>,
droppable<covariance<...>>>` an accumulator for `sum` is installed, since `covariance` declares a dependency on the
default `mean`, which is computed from `sum`.  But the mean is provided by `immediate_mean`, nobody uses the sum, its
reference count is 0 from the beginning, and `sum(acc)` is 0 for ever. -/
theorem C65_unused_is_stale (as : List (Args ℚ)) :
    dr sum ∈ stdLib.accumulators false id [dr immediateMean, dr (covariance 1)] ∧
    statRun (fun _ _ _ => .ub) (-1000) 1000 false id [dr immediateMean, dr (covariance 1)] as sum = .val 0 := by
  have hm : dr sum ∈ stdLib.accumulators false id [dr immediateMean, dr (covariance 1)] := by decide +kernel
  refine ⟨hm, ?_⟩
  have hnd := C42_unique stdLib_ok false (ord := id) (fun l => List.Perm.refl l) [dr immediateMean, dr (covariance 1)]
  have hrefs : stdLib.initRefs (stdLib.accumulators false id [dr immediateMean, dr (covariance 1)])
      [dr immediateMean, dr (covariance 1)] sum = 0 := by decide +kernel
  unfold statRun
  generalize hI : statImpl (fun _ _ _ => Res.ub) (-1000 : ℚ) 1000 = I
  have hrun := runOps_pushes (L := stdLib) I (stdLib.accumulators false id [dr immediateMean, dr (covariance 1)])
    (stdLib.construct I (stdLib.accumulators false id [dr immediateMean, dr (covariance 1)])
      [dr immediateMean, dr (covariance 1)]) as
  obtain ⟨-, h2⟩ := C47_frozen I hnd hm rfl (as.map SetOp.push) hrefs hrun
  rw [hrun]
  have h3 := Lib.construct_at I hnd [dr immediateMean, dr (covariance 1)] hm
  rw [h3] at h2
  have h4 : I.init (dr sum).base = .num 0 := by rw [← hI]; rfl
  rw [h4] at h2
  have h5 : stdLib.tkey (dr sum) = sum := rfl
  rw [h5] at h2
  show StatCell.readN _ _ 1 sum = _
  rw [StatCell.readN, h2]
  rfl

/-! ## The hypotheses are met -/

/-- C65: a set in which variants replace each other: the variance reads the lazy mean (its own choice would be the
immediate one), the covariance the immediate mean of the covariate. -/
example : statRun (fun _ _ _ => .ub) (-1000 : ℚ) 1000 false List.reverse
    [tg mean, tg variance, dr (covariance 1), tg (immediateMeanOfVariates 1), tg kurtosis, tg sumKahan]
    [⟨1, 1, fun _ => 2⟩, ⟨2, 1, fun _ => 4⟩, ⟨6, 1, fun _ => 0⟩] abstractCovariance = .val (-8 / 3) := by
  have := C65_statistics (K := ℚ) (irr := fun _ _ _ => .ub) (lo := -1000) (hi := 1000) (v0 := 1)
    ⟨fun _ _ _ _ _ _ _ => rfl, fun _ _ _ _ => rfl⟩ false (ord := List.reverse) List.reverse_perm
    [tg mean, tg variance, dr (covariance 1), tg (immediateMeanOfVariates 1), tg kurtosis, tg sumKahan]
    (by decide +kernel) (as := [⟨1, 1, fun _ => 2⟩, ⟨2, 1, fun _ => 4⟩, ⟨6, 1, fun _ => 0⟩]) (by simp) (by simp)
    (by norm_num) (r := dr (covariance 1)) (by simp) (by decide) (by decide)
  refine Eq.trans this ?_
  norm_num [Spec.covariance, Spec.mean]

/-- C65 with weights. -/
example : statRun (fun _ _ _ => .ub) (-1000 : ℚ) 1000 true id
    [tg immediateMean, tg lazyVariance, tg (covariance 1), tg immediateMeanOfWeights, tg kurtosis, tg sumKahan]
    [⟨1, 1, fun _ => 2⟩, ⟨4, 2, fun _ => 4⟩] variance = .val 2 := by
  have := C65_statistics (K := ℚ) (irr := fun _ _ _ => .ub) (lo := -1000) (hi := 1000) (v0 := 1)
    ⟨fun _ _ _ _ _ _ _ => rfl, fun _ _ _ _ => rfl⟩ true (ord := id) (fun l => List.Perm.refl l)
    [tg immediateMean, tg lazyVariance, tg (covariance 1), tg immediateMeanOfWeights, tg kurtosis, tg sumKahan]
    (by decide +kernel) (as := [⟨1, 1, fun _ => 2⟩, ⟨4, 2, fun _ => 4⟩]) (by simp) (by simp)
    (by norm_num) (r := tg lazyVariance) (by simp) (by decide) (by decide)
  refine Eq.trans this ?_
  norm_num [Spec.wvariance, Spec.wcentralMoment, Spec.wmean, Spec.wtotal]

/-- C65 over the reals: the hypotheses for the error of the mean. -/
example : ∀ t ∈ stdLib.asList false [tg errorOfMean, tg skewness, tg immediateMean, tg (moment 5)],
    basic false 0 t.base = true := by
  decide +kernel

end Acc
