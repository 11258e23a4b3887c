import Mathlib.Algebra.Field.Basic
import Mathlib.Order.Defs.LinearOrder
import Mathlib.Data.List.Basic
import Mathlib.Algebra.BigOperators.Group.List.Basic
import Mathlib.Data.List.Sort

/-!
# Specification: the P-square algorithm

R. Jain and I. Chlamtac, "The P² algorithm for dynamic calculation of quantiles and histograms without
storing observations", CACM 28 (1985), for any number `m` of markers and for weighted samples (an
unweighted sample has weight 1).  Marker `i < m` has a height `q i` and a position `n i` and estimates
the quantile at the fraction `f i`; `f 0 = 0` and `f (m - 1) = 1` in all uses.
-/

namespace Acc.Spec

variable {K : Type} [Field K] [LinearOrder K]

/-- Heights and positions of the markers. -/
structure Markers (K : Type) where
  q : ℕ → K
  n : ℕ → K

/-- The cell of a sample: the number of marker heights not exceeding it, but at least 1 and at most
`m - 1`. -/
def cellOf (m : ℕ) (q : ℕ → K) (x : K) : ℕ :=
  max 1 (min (m - 1) ((List.range m).countP fun i => decide (q i ≤ x)))

/-- A sample `x` of weight `w` arrives: the outer heights become the minimum and the maximum, all markers
from the sample's cell on move up by the weight, and the position of marker 0 is the weight of the
minimum. -/
def observe (m : ℕ) (x w : K) (M : Markers K) : Markers K where
  q i := if i = 0 then min (M.q 0) x else if i = m - 1 then max (M.q i) x else M.q i
  n i := if i = 0 then (if x < M.q 0 then w else M.n 0)
         else if cellOf m M.q x ≤ i then M.n i + w else M.n i

/-- Piecewise parabolic prediction of the height of marker `i` moved by `s`. -/
def parabolic (M : Markers K) (i : ℕ) (s : K) : K :=
  M.q i + s / (M.n (i + 1) - M.n (i - 1)) *
    ((M.n i - M.n (i - 1) + s) * ((M.q (i + 1) - M.q i) / (M.n (i + 1) - M.n i))
      + (M.n (i + 1) - M.n i - s) * ((M.q i - M.q (i - 1)) / (M.n i - M.n (i - 1))))

/-- Linear prediction towards the neighbour `j` of marker `i`. -/
def linearTo (M : Markers K) (i j : ℕ) (s : K) : K :=
  M.q i + s * ((M.q j - M.q i) / (M.n j - M.n i))

/-- Move marker `i` by `s` (1 or -1), `j` being its neighbour in that direction: use the parabolic
prediction if it lies strictly between the neighbouring heights, else the linear one. -/
def move (M : Markers K) (i j : ℕ) (s : K) : Markers K where
  q := Function.update M.q i
    (if M.q (i - 1) < parabolic M i s ∧ parabolic M i s < M.q (i + 1) then parabolic M i s
     else linearTo M i j s)
  n := Function.update M.n i (M.n i + s)

/-- Adjust marker `i`: if it is at least 1 away from its target position and there is room (more than 1)
to the neighbour on that side, move it by one. -/
def adjust (target : ℕ → K) (M : Markers K) (i : ℕ) : Markers K :=
  if 1 ≤ target i - M.n i ∧ 1 < M.n (i + 1) - M.n i then move M i (i + 1) 1
  else if target i - M.n i ≤ -1 ∧ M.n (i - 1) - M.n i < -1 then move M i (i - 1) (-1)
  else M

/-- Adjust the inner markers `1, …, m - 2` in turn. -/
def adjustAll (m : ℕ) (target : ℕ → K) (M : Markers K) : Markers K :=
  (List.range' 1 (m - 2)).foldl (adjust target) M

/-- One sample `(x, w)`; `W` is the total weight including it.  The target position of marker `i` is the
fraction `f i` of the way from the position of marker 0 to `W`. -/
def pStep (m : ℕ) (f : ℕ → K) (W : K) (M : Markers K) (xw : K × K) : Markers K :=
  let M' := observe m xw.1 xw.2 M
  adjustAll m (fun i => M'.n 0 + (W - M'.n 0) * f i) M'

/-- Total weight. -/
def pTotal (ps : List (K × K)) : K := (ps.map Prod.snd).sum

/-- The markers start on the first `m` samples, given in increasing order: heights are the samples,
positions the cumulated weights. -/
def pStart (l : List (K × K)) : Markers K where
  q i := ((l.map Prod.fst)[i]?).getD 0
  n i := pTotal (l.take (i + 1))

/-- The algorithm on the samples `rest` after starting from the ordered first samples `l`. -/
def pRun (m : ℕ) (f : ℕ → K) (l rest : List (K × K)) : Markers K :=
  (rest.foldl (fun (s : K × Markers K) xw =>
      (s.1 + xw.2, pStep m f (s.1 + xw.2) s.2 xw)) (pTotal l, pStart l)).2

/-- Unweighted samples have weight 1. -/
def unitW (xs : List K) : List (K × K) := xs.map fun x => (x, 1)

/-- The algorithm on an unweighted stream of at least `m` samples: it starts from the first `m` samples
in increasing order. -/
def markersOf (m : ℕ) (f : ℕ → K) (xs : List K) : Markers K :=
  pRun m f (unitW ((xs.take m).insertionSort (· ≤ ·))) (unitW (xs.drop m))

/-! ## Fractions of the markers in the three uses -/

/-- Five markers for the quantile at `p`: minimum, `p/2`, `p`, `(1+p)/2`, maximum. -/
def quantileFractions (p : K) : ℕ → K
  | 0 => 0
  | 1 => p / 2
  | 2 => p
  | 3 => (1 + p) / 2
  | _ => 1

/-- `b + 1` equidistant markers for a histogram of `b` cells. -/
def cellFractions (b i : ℕ) : K := (i : K) / (b : K)

/-- The principal fractions of the extended algorithm: 0, the given probabilities, 1. -/
def principal (ps : List K) (k : ℕ) : K := if k = 0 then 0 else (ps[k - 1]?).getD 1

/-- The extended algorithm: principal markers at even places, midpoints between them. -/
def extendedFractions (ps : List K) (i : ℕ) : K :=
  if i % 2 = 0 then principal ps (i / 2)
  else (principal ps (i / 2) + principal ps (i / 2 + 1)) / 2

end Acc.Spec
