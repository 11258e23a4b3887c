import Verif.Model.Vec
import Verif.Model.History
import Mathlib.Data.List.Sort

/-!
# Model of the P-square estimators

`p_square_quantile.hpp`, `p_square_cumul_dist.hpp`, `extended_p_square.hpp`, their weighted
counterparts, and `extended_p_square_quantile.hpp`, all under
`/repo/include/boost/accumulators/statistics/`.  The six accumulators repeat the same code for different
numbers of markers; the repeated parts are modelled once and cite every copy.  Arithmetic is exact.
-/

namespace Acc

variable {K : Type} [Arith K] [DecidableEq K] [LE K] [LT K] [DecidableLE K] [DecidableLT K]

/-! ## The parts common to all estimators -/

/-- Finding the cell of a sample and replacing the extreme heights:
`p_square_quantile.hpp:110-131`, `p_square_cumul_dist.hpp:107-128`, `extended_p_square.hpp:147-168`,
`weighted_p_square_quantile.hpp:121-143`, `weighted_p_square_cumul_dist.hpp:122-144`,
`weighted_extended_p_square.hpp:143-166`.
Returns the heights, the cell, and whether the sample is a new strict minimum. -/
def psqCell (h : List K) (x : K) : Res (List K × ℕ × Bool) := do
  let h0 ← getAt h 0
  if x < h0 then do
    let h' ← setAt h 0 x
    pure (h', 1, true)
  else do
    let hl ← getAt h (h.length - 1)
    if hl ≤ x then do
      let h' ← setAt h (h.length - 1) x
      pure (h', h.length - 1, false)
    else do
      let k ← upperBound h x
      pure (h, k, false)

/-- `for (i = sample_cell; i < markers; ++i) actual_positions[i] += w` (`++` when unweighted):
`p_square_quantile.hpp:134-137`, `p_square_cumul_dist.hpp:131-134`, `extended_p_square.hpp:171-174`,
`weighted_p_square_quantile.hpp:146-149`, `weighted_p_square_cumul_dist.hpp:147-150`,
`weighted_extended_p_square.hpp:169-172`. -/
def psqBump (k : ℕ) (w : K) (pos : List K) : List K :=
  pos.mapIdx (fun i n => if k ≤ i then n + w else n)

/-- One iteration of the adjustment loop: `p_square_quantile.hpp:146-187`,
`p_square_cumul_dist.hpp:144-184`, `extended_p_square.hpp:183-224`,
`weighted_p_square_quantile.hpp:162-202`, `weighted_p_square_cumul_dist.hpp:160-200`,
`weighted_extended_p_square.hpp:199-239`.
`hp`, `hm` and `h` may be non-finite; then the comparisons `heights[i-1] < h && h < heights[i+1]` are
false.  `sign_d` is `d / |d|`, i.e. 1 or -1. -/
def psqAdjust1 (des : List K) (s : List K × List K) (i : ℕ) : Res (List K × List K) := do
  let di ← getAt des i
  let ni ← getAt s.2 i
  let np ← getAt s.2 (i + 1)
  let nm ← getAt s.2 (i - 1)
  let qi ← getAt s.1 i
  let qp ← getAt s.1 (i + 1)
  let qm ← getAt s.1 (i - 1)
  let d := di - ni
  let dp := np - ni
  let dm := nm - ni
  let hp := fdiv (qp - qi) dp
  let hm := fdiv (qm - qi) dm
  if (1 ≤ d ∧ 1 < dp) ∨ (d ≤ -1 ∧ dm < -1) then do
    let sgn : K := if 0 < d then 1 else -1
    let h : Res K := do
      let c ← fdiv sgn (dp - dm)
      let a ← hp
      let b ← hm
      pure (qi + c * ((sgn - dm) * a + (dp - sgn) * b))
    let linear : Res K :=
      if 0 < d then do
        let a ← hp
        pure (qi + a)
      else do
        let b ← hm
        pure (qi - b)
    let q ← match h with
      | .val v => if qm < v ∧ v < qp then .val v else linear
      | _ => linear
    let hs ← setAt s.1 i q
    let ns ← setAt s.2 i (ni + sgn)
    pure (hs, ns)
  else pure s

/-- The adjustment loop over the inner markers `1 .. markers - 2`. -/
def psqAdjust (des : List K) (s : List K × List K) : Res (List K × List K) :=
  foldRes (psqAdjust1 des) s (List.range' 1 (s.1.length - 2))

/-! ## Unweighted estimators -/

/-- Members of an unweighted P-square accumulator together with the `count` it depends on
(`p_square_quantile.hpp:208-213`, `p_square_cumul_dist.hpp:224-231`, `extended_p_square.hpp:253-258`). -/
structure PsqSt (K : Type) where
  cnt : ℕ
  heights : List K
  pos : List K
  des : List K

/-- Constructor with `positions_increments = incr` (one per marker): actual positions `1, 2, …`,
heights zero-initialised, desired positions `1 + (markers - 1) * increment`
(`p_square_quantile.hpp:64-88`, `p_square_cumul_dist.hpp:66-83`, `extended_p_square.hpp:86-122`).
`p_square_quantile.hpp:76-80` writes the five desired positions out and `p_square_cumul_dist.hpp:80` writes
`i + 1`; `PsqSt.Des` in the proofs shows that these are the same numbers. -/
def psqInit (incr des : List K) : PsqSt K where
  cnt := 0
  heights := incr.map fun _ => 0
  pos := (List.range incr.length).map fun i : ℕ => (i : K) + 1
  des := des

/-- `operator()`: `p_square_quantile.hpp:91-189`, `p_square_cumul_dist.hpp:86-186`,
`extended_p_square.hpp:125-226`.  `cnt` is what `count(args)` returns, already incremented.
Simplification: `p_square_cumul_dist.hpp:138` leaves `desired_positions[0]` alone; its increment is 0. -/
def psqStep (incr : List K) (cnt : ℕ) (s : PsqSt K) (x : K) : Res (PsqSt K) :=
  if cnt ≤ incr.length then do
    let h ← setAt s.heights (cnt - 1) x
    pure { s with cnt := cnt,
                  heights := if cnt = incr.length then h.insertionSort (· ≤ ·) else h }
  else do
    let c ← psqCell s.heights x
    let des := List.zipWith (· + ·) s.des incr
    let r ← psqAdjust des (c.1, psqBump c.2.1 1 s.pos)
    pure ⟨cnt, r.1, r.2, des⟩

/-- A push into the whole set: `count` first. -/
def psqPush (incr : List K) (s : PsqSt K) (x : K) : Res (PsqSt K) := psqStep incr (s.cnt + 1) s x

/-- `p_square_quantile.hpp:83-87`: position increments for the quantile probability `p`. -/
def psqQuantileIncr (p : K) : List K := [0, p / 2, p, (1 + p) / 2, 1]

/-- `p_square_quantile.hpp:76-80`: initial desired positions. -/
def psqQuantileDes (p : K) : List K := [1, 1 + 2 * p, 1 + 4 * p, 3 + 2 * p, 5]

/-- `accumulator_set<Sample, features<tag::p_square_quantile>>` with `quantile_probability = p`
(`p_square_quantile.hpp:55-214`); `result` returns `heights[2]` (191-194). -/
def psqQuantileSet (p : K) : RMachine K Unit (PsqSt K) K where
  init := psqInit (psqQuantileIncr p) (psqQuantileDes p)
  push := psqPush (psqQuantileIncr p)
  query s _ := do
    let r ← getAt s.heights 2
    pure (s, r)

/-- `tag::median`: `median_impl::result` (`median.hpp:46-50`) returns the result of
`p_square_quantile_for_median`, whose constructor fixes `p` to 0.5 whatever the arguments
(`p_square_quantile.hpp:65`). -/
def medianSet : RMachine K Unit (PsqSt K) K := psqQuantileSet (1 / 2)

/-- `p_square_cumul_dist.hpp:81`: position increments for `b` cells.
Simplification: for `b = 0` the code computes NaN. -/
def psqCumulIncr (b : ℕ) : List K := (List.range (b + 1)).map fun i : ℕ => (i : K) / (b : K)

/-- `p_square_cumul_dist.hpp:80`: initial desired positions. -/
def psqCumulDes (b : ℕ) : List K := (List.range (b + 1)).map fun i : ℕ => (i : K) + 1

/-- Members of the cumulative distribution accumulator (`p_square_cumul_dist.hpp:224-231`). -/
structure PsqCumulSt (K : Type) where
  m : PsqSt K
  hist : List (K × Res K)
  dirty : Bool

/-- Body of `p_square_cumul_dist.hpp:201-204`, `weighted_p_square_cumul_dist.hpp:215-218`: the histogram
for total mass `n`. -/
def psqHist (h pos : List K) (n : K) : Res (List (K × Res K)) :=
  mapRes (fun i => do
    let a ← getAt h i
    let b ← getAt pos i
    pure (a, fdiv b n)) (List.range h.length)

/-- `accumulator_set<Sample, features<tag::p_square_cumulative_distribution>>` with `num_cells = b`
(`p_square_cumul_dist.hpp:55-232`); `result` 188-208. -/
def psqCumulSet (b : ℕ) : RMachine K Unit (PsqCumulSt K) (List (K × Res K)) where
  init := ⟨psqInit (psqCumulIncr b) (psqCumulDes b), List.replicate (b + 1) (0, .val 0), true⟩
  push s x := do
    let m ← psqPush (psqCumulIncr b) s.m x
    pure { s with m := m, dirty := true }
  query s _ :=
    if s.dirty then do
      let r ← psqHist s.m.heights s.m.pos (s.m.cnt : K)
      pure ({ s with hist := r, dirty := false }, r)
    else pure (s, s.hist)

/-- The principal increments `0, p_1, …, p_q, 1` and the midpoints between them: one step of
`extended_p_square.hpp:112-116`. -/
def interleave (prev : K) : List K → List K
  | [] => []
  | p :: ps => 1 / 2 * (prev + p) :: p :: interleave p ps

/-- `extended_p_square.hpp:104-116`: position increments for the probabilities `ps`
(`[0] = 0`, `[2i+2] = ps[i]`, `[last] = 1`, `[2i+1]` the mean of its neighbours). -/
def epsqIncr (ps : List K) : List K := 0 :: interleave 0 (ps ++ [1])

/-- `extended_p_square.hpp:118-121`: initial desired positions `1 + 2 (q + 1) * increment`. -/
def epsqDes (ps : List K) : List K :=
  (epsqIncr ps).map fun f => 1 + 2 * ((ps.length : K) + 1) * f

/-- `extended_p_square.hpp:228-238` with `times2_iterator.hpp:25-44`: the heights `[2]`, `[4]`, …,
`[2 q]`. -/
def epsqResult (q : ℕ) (h : List K) : Res (List K) :=
  mapRes (fun i => getAt h (2 * i)) (List.range' 1 q)

/-- `accumulator_set<Sample, features<tag::extended_p_square>>` with
`extended_p_square_probabilities = ps` (`extended_p_square.hpp:69-259`). -/
def epsqSet (ps : List K) : RMachine K Unit (PsqSt K) (List K) where
  init := psqInit (epsqIncr ps) (epsqDes ps)
  push := psqPush (epsqIncr ps)
  query s _ := do
    let r ← epsqResult ps.length s.heights
    pure (s, r)

/-! ## Interpolated quantiles -/

/-- `std::distance(begin, std::lower_bound(begin, end, p))`: the first position whose element is not
less than `p`; undefined unless the elements less than `p` come first. -/
def lowerBound (l : List K) (p : K) : Res ℕ :=
  let k := l.findIdx (fun e => decide (p ≤ e))
  if (l.drop k).all (fun e => decide (p ≤ e)) then .val k else .ub

/-- Which interpolation: `extended_p_square_quantile.hpp` tag types `linear` and `quadratic`. -/
inductive Interp where
  | linear
  | quadratic
  deriving Repr, DecidableEq

/-- `extended_p_square_quantile.hpp:136-144`: linear interpolation. -/
def interpLinear (p p0 p1 h0 h1 : K) : Res K := do
  let a ← fdiv (h1 - h0) (p1 - p0)
  let b := h1 - p1 * a
  pure (a * p + b)

/-- `extended_p_square_quantile.hpp:173-182`: quadratic interpolation. -/
def interpQuadratic (p p0 p1 p2 h0 h1 h2 : K) : Res K := do
  let hp21 ← fdiv (h2 - h1) (p2 - p1)
  let hp10 ← fdiv (h1 - h0) (p1 - p0)
  let p21 ← fdiv (p2 * p2 - p1 * p1) (p2 - p1)
  let p10 ← fdiv (p1 * p1 - p0 * p0) (p1 - p0)
  let a ← fdiv (hp21 - hp10) (p21 - p10)
  let b := hp21 - a * p21
  let c := h2 - a * p2 * p2 - b * p2
  pure (a * p * p + b * p + c)

/-- `v[k - j]`, `*(it - j)`: undefined before the beginning. -/
def getBack {α : Type} (l : List α) (k j : ℕ) : Res α := if j ≤ k then getAt l (k - j) else .ub

/-- `extended_p_square_quantile_impl::result` (`extended_p_square_quantile.hpp:84-188`) for the
probabilities `ps`, the extended P-square estimates `hs` and the requested probability `p`.
`nan` says whether the result type has a quiet NaN. -/
def epsqQuantile (kind : Interp) (nan : Bool) (ps hs : List K) (p : K) : Res K := do
  let dist ← lowerBound ps p
  let first ← getAt ps 0
  let last ← getBack ps ps.length 1
  if p < first ∨ last < p then
    if nan then .nonfinite else .thrown
  else do
    let pi ← getAt ps dist
    if pi = p then getAt hs dist
    else
      match kind with
      | .linear => do
        let p0 ← getBack ps dist 1
        let h1 ← getAt hs dist
        let h0 ← getBack hs dist 1
        interpLinear p p0 pi h0 h1
      | .quadratic => do
        -- `dist == 1 ||` short-circuits; `dist` is at least 1 here
        let pm ← getBack ps dist 1
        if (dist = 1 ∨ pi - p ≤ p - pm) ∧ dist ≠ ps.length - 1 then do
          let p2 ← getAt ps (dist + 1)
          let h0 ← getBack hs dist 1
          let h1 ← getAt hs dist
          let h2 ← getAt hs (dist + 1)
          interpQuadratic p pm pi p2 h0 h1 h2
        else do
          let p0 ← getBack ps dist 2
          let h0 ← getBack hs dist 2
          let h1 ← getBack hs dist 1
          let h2 ← getAt hs dist
          interpQuadratic p p0 pm pi h0 h1 h2

/-- The outcome of an extraction that does not change the set: NaN and exceptions are results. -/
def asResult {S : Type} (s : S) : Res K → Res (S × Res K)
  | .ub => .ub
  | .diverges => .diverges
  | r => .val (s, r)

/-- `accumulator_set<Sample, features<tag::extended_p_square_quantile[_quadratic]>>`; the query argument
is the requested `quantile_probability`.  Returning NaN or throwing is a result and leaves the set as it
is; undefined behaviour is not. -/
def epsqQuantileSet (kind : Interp) (nan : Bool) (ps : List K) :
    RMachine K K (PsqSt K) (Res K) where
  init := psqInit (epsqIncr ps) (epsqDes ps)
  push := psqPush (epsqIncr ps)
  query s p := do
    let hs ← epsqResult ps.length s.heights
    asResult s (epsqQuantile kind nan ps hs p)

/-! ## Weighted estimators -/

/-- Members of a weighted P-square accumulator together with `count` and `sum_of_weights`
(`weighted_p_square_quantile.hpp:222-226`, `weighted_p_square_cumul_dist.hpp:237-243`,
`weighted_extended_p_square.hpp:266-270`).  `desired_positions` is recomputed by every push before it is
read, so it is not part of the state. -/
structure WPsqSt (K : Type) where
  cnt : ℕ
  wsum : K
  heights : List K
  pos : List K

/-- `std::min_element`: position of the first minimum. -/
def minIdx (l : List (K × K)) : ℕ :=
  l.findIdx (fun a => l.all fun b => decide (a.1 ≤ b.1))

/-- The selection sort `weighted_p_square_quantile.hpp:93-108`,
`weighted_p_square_cumul_dist.hpp:96-111`, `weighted_extended_p_square.hpp:117-132`: swap the first
minimum to the front, continue with the rest.  Heights and weights are swapped in the same way, so they
are sorted as pairs.  The first argument bounds the number of iterations (the length of the list). -/
def selSort : ℕ → List (K × K) → List (K × K)
  | 0, l => l
  | _, [] => []
  | n + 1, a :: t =>
    match minIdx (a :: t) with
    | 0 => a :: selSort n t
    | d + 1 =>
      match t[d]? with
      | some b => b :: selSort n (t.set d a)
      | none => a :: selSort n t

/-- `for (i = 1; i < n; ++i) pos[i] += pos[i - 1]` for the whole list. -/
def prefixSums (acc : K) : List K → List K
  | [] => []
  | w :: ws => (acc + w) :: prefixSums (acc + w) ws

/-- `operator()` of the weighted estimators with `m` markers: `weighted_p_square_quantile.hpp:73-204`,
`weighted_p_square_cumul_dist.hpp:74-202`, `weighted_extended_p_square.hpp:96-241`.
`summed` markers get cumulated weights at the end of the initialisation (all of them, except in the
cumulative distribution, see `wpsqCumulSet`); `desired pos0 W` are the desired positions; `cnt` and `wsum` are what
`count(args)` and `sum_of_weights(args)` return. -/
def wpsqStep (m summed : ℕ) (desired : K → K → Res (List K)) (cnt : ℕ) (wsum : K) (s : WPsqSt K) (xw : K × K) :
    Res (WPsqSt K) :=
  if cnt ≤ m then do
    let h ← setAt s.heights (cnt - 1) xw.1
    let n ← setAt s.pos (cnt - 1) xw.2
    if cnt = m then
      let l := selSort m (h.zip n)
      let ws := l.map Prod.snd
      pure ⟨cnt, wsum, l.map Prod.fst, prefixSums 0 (ws.take summed) ++ ws.drop summed⟩
    else pure ⟨cnt, wsum, h, n⟩
  else do
    let c ← psqCell s.heights xw.1
    let pos ← if c.2.2 then setAt s.pos 0 xw.2 else pure s.pos
    let pos' := psqBump c.2.1 xw.2 pos
    let n0 ← getAt pos' 0
    let des ← desired n0 wsum
    let r ← psqAdjust des (c.1, pos')
    pure ⟨cnt, wsum, r.1, r.2⟩

/-- A push into the whole set: `count` and `sum_of_weights` first. -/
def wpsqPush (m summed : ℕ) (desired : K → K → Res (List K)) (s : WPsqSt K) (xw : K × K) : Res (WPsqSt K) :=
  wpsqStep m summed desired (s.cnt + 1) (s.wsum + xw.2) s xw

/-- Constructor: everything zero. -/
def wpsqInit (m : ℕ) : WPsqSt K := ⟨0, 0, List.replicate m 0, List.replicate m 0⟩

/-- `weighted_p_square_quantile.hpp:152-159`. -/
def wpsqQuantileDes (p n0 W : K) : List K :=
  [n0, (W - n0) * p / 2 + n0, (W - n0) * p + n0, (W - n0) * (1 + p) / 2 + n0, W]

/-- `accumulator_set<Sample, features<tag::weighted_p_square_quantile>, Weight>`
(`weighted_p_square_quantile.hpp:53-227`). -/
def wpsqQuantileSet (p : K) : RMachine (K × K) Unit (WPsqSt K) K where
  init := wpsqInit 5
  push := wpsqPush 5 5 (fun n0 W => .val (wpsqQuantileDes p n0 W))
  query s _ := do
    let r ← getAt s.heights 2
    pure (s, r)

/-- `tag::weighted_median` (`weighted_median.hpp:47-51`): `p` fixed to 0.5
(`weighted_p_square_quantile.hpp:65`). -/
def wmedianSet : RMachine (K × K) Unit (WPsqSt K) K := wpsqQuantileSet (1 / 2)

/-- `weighted_p_square_cumul_dist.hpp:153-157` (`desired_positions[0]` keeps its initial 0; it is never
read). -/
def wpsqCumulDes (b : ℕ) (n0 W : K) : List K :=
  0 :: (List.range' 1 b).map fun i : ℕ => n0 + ((i : K) - 1) * (W - n0) / (b : K)

/-- Members of the weighted cumulative distribution (`weighted_p_square_cumul_dist.hpp:237-243`). -/
structure WPsqCumulSt (K : Type) where
  m : WPsqSt K
  hist : List (K × Res K)
  dirty : Bool

/-- `accumulator_set<Sample, features<tag::weighted_p_square_cumulative_distribution>, Weight>`
(`weighted_p_square_cumul_dist.hpp:51-244`).  The initial weights are cumulated only for the markers
`i < b` (114-117), not for the last marker `b`. -/
def wpsqCumulSet (b : ℕ) : RMachine (K × K) Unit (WPsqCumulSt K) (List (K × Res K)) where
  init := ⟨wpsqInit (b + 1), List.replicate (b + 1) (0, .val 0), true⟩
  push s x := do
    let m ← wpsqPush (b + 1) b (fun n0 W => .val (wpsqCumulDes b n0 W)) s.m x
    pure { s with m := m, dirty := true }
  query s _ :=
    if s.dirty then do
      let r ← psqHist s.m.heights s.m.pos s.m.wsum
      pure ({ s with hist := r, dirty := false }, r)
    else pure (s, s.hist)

/-- `weighted_extended_p_square.hpp:174-196`; `probabilities[0]` and
`probabilities[num_quantiles - 1]` are undefined for empty probabilities.
`[2i+2] = (W - n0) p_i + n0`, `[2i+1] = (W - n0) (p_{i-1} + p_i) / 2 + n0`; the first and last
midpoints use 0 and 1 as outer neighbours. -/
def wepsqDes (ps : List K) (n0 W : K) : Res (List K) := do
  let p0 ← getAt ps 0
  let pl ← getBack ps ps.length 1
  let inner ← mapRes (fun i => do
      let a ← getAt ps (i - 1)
      let b ← getAt ps i
      pure [(W - n0) * (a + b) / 2 + n0, (W - n0) * b + n0]) (List.range' 1 (ps.length - 1))
  pure ([n0, (W - n0) * p0 / 2 + n0, (W - n0) * p0 + n0] ++ inner.flatten
    ++ [(W - n0) * (pl + 1) / 2 + n0, W])

/-- `accumulator_set<Sample, features<tag::weighted_extended_p_square>, Weight>`
(`weighted_extended_p_square.hpp:67-271`). -/
def wepsqSet (ps : List K) : RMachine (K × K) Unit (WPsqSt K) (List K) where
  init := wpsqInit (2 * ps.length + 3)
  push := wpsqPush (2 * ps.length + 3) (2 * ps.length + 3) (wepsqDes ps)
  query s _ := do
    let r ← epsqResult ps.length s.heights
    pure (s, r)

/-- `accumulator_set<Sample, features<tag::weighted_extended_p_square_quantile[_quadratic]>, Weight>`. -/
def wepsqQuantileSet (kind : Interp) (nan : Bool) (ps : List K) :
    RMachine (K × K) K (WPsqSt K) (Res K) where
  init := wpsqInit (2 * ps.length + 3)
  push := wpsqPush (2 * ps.length + 3) (2 * ps.length + 3) (wepsqDes ps)
  query s p := do
    let hs ← epsqResult ps.length s.heights
    asResult s (epsqQuantile kind nan ps hs p)

end Acc
